import Verif.Model.Common
import Verif.Base.GammaInc

/-! Model of `mpsci/distributions/invchi2.py`. -/

namespace Mpsci.invchi2

open Classical Num common

/-- `invchi2.py` 38-41. -/
noncomputable def validateNu (nu : Num) : M Num :=
  if nu ≤ 0 then .error .valueError else .ok nu

/-- `invchi2.py` 45-56. -/
noncomputable def pdf (x nu : Num) : M Num := do
  let nu ← validateNu nu
  if x ≤ 0 then
    return 0
  else
    let hnu ← nu /. 2
    ((← mp.power 2 (-hnu)) * (← mp.power x (-hnu - 1)) * mp.exp (← (-1) /. (2 * x))) /. (← mp.gamma hnu)

/-- `invchi2.py` 60-71. -/
noncomputable def logpdf (x nu : Num) : M Num := do
  let nu ← validateNu nu
  if x ≤ 0 then
    return ninf
  else
    let hnu ← nu /. 2
    return (-hnu) * (← mp.log 2) + (-hnu - 1) * (← mp.log x) - (← 1 /. (2 * x)) - (← mp.loggamma hnu)

/-- `invchi2.py` 75-84. -/
noncomputable def cdf (x nu : Num) : M Num := do
  let nu ← validateNu nu
  if x ≤ 0 then
    return 0
  else
    mp.gammaincReg (← nu /. 2) (← 1 /. (2 * x)) pinf

/-- `invchi2.py` 88-97. -/
noncomputable def sf (x nu : Num) : M Num := do
  let nu ← validateNu nu
  if x ≤ 0 then
    return 1
  else
    mp.gammaincReg (← nu /. 2) 0 (← 1 /. (2 * x))

/-- `invchi2.py` 100-105. -/
noncomputable def support (nu : Num) : M (Num × Num) := do
  let _ ← validateNu nu
  return (0, pinf)

/-- `invchi2.py` 109-117. -/
noncomputable def mean (nu : Num) : M Num := do
  let nu ← validateNu nu
  if 2 < nu then 1 /. (nu - 2) else return nan

/-- `invchi2.py` 132-139. -/
noncomputable def mode (nu : Num) : M Num := do
  let nu ← validateNu nu
  1 /. (nu + 2)

/-- `invchi2.py` 143-153. -/
noncomputable def var (nu : Num) : M Num := do
  let nu ← validateNu nu
  if 4 < nu then (← 2 /. mp.ipow (nu - 2) 2) /. (nu - 4) else return nan

end Mpsci.invchi2
