import Verif.Model.Common
import Verif.Model.Fun.Powm1
import Verif.Base.Hyp2f1

/-! Model of `mpsci/distributions/gamma_gompertz.py`. -/

namespace Mpsci.gamma_gompertz

open Classical Num common

/-- `gamma_gompertz.py` 28-35. -/
noncomputable def validateParams (c beta scale : Num) : M (Num × Num × Num) :=
  if c ≤ 0 then .error .valueError
  else if beta ≤ 0 then .error .valueError
  else if scale ≤ 0 then .error .valueError
  else .ok (c, beta, scale)

/-- `gamma_gompertz.py` 38-50. -/
noncomputable def pdf (x c beta scale : Num) : M Num := do
  let (c, beta, scale) ← validateParams c beta scale
  if x < 0 then
    return 0
  else
    let z ← x /. scale
    let num := c * mp.exp z * (← mp.power beta c)
    let den := scale * (← mp.power (beta + mp.expm1 z) (c + 1))
    num /. den

/-- `gamma_gompertz.py` 53-64. -/
noncomputable def logpdf (x c beta scale : Num) : M Num := do
  let (c, beta, scale) ← validateParams c beta scale
  if x < 0 then
    return ninf
  else
    let z ← x /. scale
    return (← mp.log c) + z + c * (← mp.log beta)
      - (c + 1) * (← mp.log (beta + mp.expm1 z)) - (← mp.log scale)

/-- `gamma_gompertz.py` 67-79. -/
noncomputable def cdf (x c beta scale : Num) : M Num := do
  let (c, beta, scale) ← validateParams c beta scale
  if x < 0 then
    return 0
  else
    let z ← x /. scale
    if beta =. 1 then
      return -(mp.expm1 (-c * z))
    else
      return -(← mp.powm1 (← beta /. (beta + mp.expm1 z)) c)

/-- `gamma_gompertz.py` 82-90. -/
noncomputable def invcdf (p c beta scale : Num) : M Num := do
  let (c, beta, scale) ← validateParams c beta scale
  let p ← validateP p
  let r ← fun_.pow1pm1 (-p) (← (-1) /. c)
  return scale * (← mp.log1p (beta * r))

/-- `gamma_gompertz.py` 93-106. -/
noncomputable def sf (x c beta scale : Num) : M Num := do
  let (c, beta, scale) ← validateParams c beta scale
  if x < 0 then
    return 1
  else
    let z ← x /. scale
    if beta =. 1 then
      return mp.exp (-c * z)
    else
      let ex := mp.exp z
      mp.power (← beta /. (beta - 1 + ex)) c

/-- `gamma_gompertz.py` 109-118. -/
noncomputable def invsf (p c beta scale : Num) : M Num := do
  let (c, beta, scale) ← validateParams c beta scale
  let p ← validateP p
  let r ← mp.powm1 p (← (-1) /. c)
  let _ := scale * (← mp.log1p (beta * r))
  return scale * (← mp.log1p (beta * r))

/-- `gamma_gompertz.py` 121-127. -/
noncomputable def support (c beta scale : Num) : M (Num × Num) := do
  let _ ← validateParams c beta scale
  return (0, pinf)

/-- `gamma_gompertz.py` 130-140. -/
noncomputable def mean (c beta scale : Num) : M Num := do
  let (c, beta, scale) ← validateParams c beta scale
  if beta =. 1 then
    scale /. c
  else if c =. 1 then
    return (← scale * beta /. (beta - 1)) * (← mp.log beta)
  else
    return (← scale /. c) * (← mp.hyp2f1 c 1 (c + 1) (← (beta - 1) /. beta))

/-- `gamma_gompertz.py` 143-153. -/
noncomputable def mode (c beta scale : Num) : M Num := do
  let (c, beta, scale) ← validateParams c beta scale
  if beta ≤ c + 1 then
    return 0
  else
    return scale * (← mp.log (← (beta - 1) /. c))

end Mpsci.gamma_gompertz
