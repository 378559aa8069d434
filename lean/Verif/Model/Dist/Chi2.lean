import Verif.Model.Common
import Verif.Model.Common.Search
import Verif.Base.GammaInc

/-! Model of `mpsci/distributions/chi2.py`. The quantile functions are modelled with the default `solver='bisect'`. -/

namespace Mpsci.chi2

open Classical Num common

/-- `chi2.py` 16-19. -/
noncomputable def validateK (k : Num) : M Num :=
  if k ≤ 0 then .error .valueError else .ok k

/-- `chi2.py` 22-32. -/
noncomputable def pdf (x k : Num) : M Num := do
  let k ← validateK k
  if x < 0 then
    return 0
  else
    (← (mp.exp (← (-x) /. 2) * (← mp.power (← x /. 2) ((← k /. 2) - 1))) /. 2) /. (← mp.gamma (← k /. 2))

/-- `chi2.py` 35-45. -/
noncomputable def logpdf (x k : Num) : M Num := do
  let k ← validateK k
  if x < 0 then
    return ninf
  else
    return (← (-x) /. 2) + ((← k /. 2) - 1) * (← mp.log (← x /. 2)) - (← mp.log 2) - (← mp.loggamma (← k /. 2))

/-- `chi2.py` 48-58. -/
noncomputable def cdf (x k : Num) : M Num := do
  let k ← validateK k
  if x ≤ 0 then
    return 0
  else
    mp.gammaincReg (← k /. 2) 0 (← x /. 2)

/-- `chi2.py` 61-75. -/
noncomputable def invcdf (findroot : (Num → M Num) → Num → Num → M Num) (fuel : ℕ) (p k : Num) : M Num :=
  genericInv findroot fuel (fun x => cdf x k) p 1

/-- `chi2.py` 78-90. -/
noncomputable def invcdfK (findroot : (Num → M Num) → Num → Num → M Num) (fuel : ℕ) (x p : Num) : M Num :=
  genericInv findroot fuel (fun k => cdf x k) p (-1)

/-- `chi2.py` 93-103. -/
noncomputable def sf (x k : Num) : M Num := do
  let k ← validateK k
  if x ≤ 0 then
    return 1
  else
    mp.gammaincReg (← k /. 2) (← x /. 2) pinf

/-- `chi2.py` 106-120. -/
noncomputable def invsf (findroot : (Num → M Num) → Num → Num → M Num) (fuel : ℕ) (p k : Num) : M Num :=
  genericInv findroot fuel (fun x => sf x k) p (-1)

/-- `chi2.py` 123-135. -/
noncomputable def invsfK (findroot : (Num → M Num) → Num → Num → M Num) (fuel : ℕ) (x p : Num) : M Num :=
  genericInv findroot fuel (fun k => sf x k) p 1

/-- `chi2.py` 138-143. -/
noncomputable def support (k : Num) : M (Num × Num) := do
  let _ ← validateK k
  return (0, pinf)

/-- `chi2.py` 146-151. -/
noncomputable def mean (k : Num) : M Num := do
  let k ← validateK k
  return k

/-- `chi2.py` 154-162 (Python's `max(a, b)` is `b` if `b > a`, else `a`). -/
noncomputable def mode (k : Num) : M Num := do
  let k ← validateK k
  return if 0 > k - 2 then 0 else k - 2

/-- `chi2.py` 165-171. -/
noncomputable def var (k : Num) : M Num := do
  let k ← validateK k
  return 2 * k

/-- `chi2.py` 174-181. -/
noncomputable def entropy (k : Num) : M Num := do
  let k ← validateK k
  let k2 ← k /. 2
  return k2 + (← mp.log 2) + (← mp.loggamma k2) + (1 - k2) * (← mp.psi 0 k2)

/-- `chi2.py` 184-195. -/
noncomputable def noncentralMoment (n : ℤ) (k : Num) : M Num := do
  let n ← validateMomentN n
  let k ← validateK k
  if n = 0 then
    return 1
  else
    return mp.ipow 2 n * (← mp.gammaprod (fin n + (← k /. 2)) (← k /. 2))

end Mpsci.chi2
