import Verif.Model.Common
import Verif.Base.GammaInc

/-! Model of `mpsci/distributions/chi.py`. -/

namespace Mpsci.chi

open Classical Num common

/-- `chi.py` 15-18. -/
noncomputable def validateK (k : Num) : M Num :=
  if k ≤ 0 then .error .valueError else .ok k

/-- `chi.py` 53-63. -/
noncomputable def logpdf (x k : Num) : M Num := do
  let k ← validateK k
  if x < 0 then
    return ninf
  else
    return (k - 1) * (← mp.log x) - (← mp.ipow x 2 /. 2) - ((← k /. 2) - 1) * (← mp.log 2) - (← mp.loggamma (← k /. 2))

/-- `chi.py` 22-35. -/
noncomputable def pdf (x k : Num) : M Num := do
  let k ← validateK k
  if x < 0 then
    return 0
  else
    return mp.exp (← logpdf x k)

/-- `chi.py` 67-76. -/
noncomputable def cdf (x k : Num) : M Num := do
  let k ← validateK k
  if x ≤ 0 then
    return 0
  else
    mp.gammaincReg (← k /. 2) 0 (← mp.ipow x 2 /. 2)

/-- `chi.py` 80-89. -/
noncomputable def sf (x k : Num) : M Num := do
  let k ← validateK k
  if x ≤ 0 then
    return 1
  else
    mp.gammaincReg (← k /. 2) (← mp.ipow x 2 /. 2) pinf

/-- `chi.py` 92-97. -/
noncomputable def support (k : Num) : M (Num × Num) := do
  let _ ← validateK k
  return (0, pinf)

/-- `chi.py` 101-112. -/
noncomputable def mode (k : Num) : M Num := do
  let k ← validateK k
  if k < 1 then
    return 0
  else
    mp.sqrt (k - 1)

/-- `chi.py` 123-128. -/
noncomputable def mean (k : Num) : M Num := do
  let k ← validateK k
  ((← mp.sqrt 2) * (← mp.gamma (← (k + 1) /. 2))) /. (← mp.gamma (← k /. 2))

/-- `chi.py` 132-138. -/
noncomputable def var (k : Num) : M Num := do
  let k ← validateK k
  let mu ← mean k
  return k - mp.ipow mu 2

/-- `chi.py` 142-148. -/
noncomputable def entropy (k : Num) : M Num := do
  let k ← validateK k
  let k2 ← k /. 2
  return (← mp.loggamma k2) + (← (k - (← mp.log 2) - (k - 1) * (← mp.psi 0 k2)) /. 2)

/-- `chi.py` 152-162 (`n/2`, a float in Python, is exact). -/
noncomputable def noncentralMoment (n : ℤ) (k : Num) : M Num := do
  let n ← validateMomentN n
  let k ← validateK k
  if n = 0 then
    return 1
  else
    return (← mp.power 2 (fin ((n:ℝ) / 2))) * (← mp.gammaprod (← (fin n + k) /. 2) (← k /. 2))

end Mpsci.chi
