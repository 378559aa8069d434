import Verif.Base.Discrete
import Verif.Model.Common

/-! Model of `mpsci/distributions/logseries.py` (`k` a Python integer); `nll` and `mle` are in `Model/Fit/Logseries.lean`. -/

namespace Mpsci

open Classical Num MeasureTheory

/-- `mp.betainc(a, 0, 0, x)` with a positive `a` and `0 <= x < 1`: the integral of `t**(a-1)/(1 - t)` from 0 to `x`; it is infinite
for `x = 1`. -/
noncomputable def mp.betaincZero : Num → Num → M Num
  | fin a, fin x => if 0 < a ∧ 0 ≤ x ∧ x < 1 then .ok (fin (∫ t in (0:ℝ)..x, t ^ (a - 1) / (1 - t)))
      else if 0 < a ∧ x = 1 then .ok pinf else .error .notModelled
  | _, _ => .error .notModelled

namespace logseries

/-- `logseries.py` 54-61 `logpmf` -/
noncomputable def logpmf (k : ℤ) (p : Num) : M Num := do
  let p ← common.validateP p
  if k < 1 then return ninf
  return ofInt k * (← mp.log p) - (← mp.log (ofInt k)) - (← mp.log (-(← mp.log1p (-p))))

/-- `logseries.py` 43-50 `pmf` -/
noncomputable def pmf (k : ℤ) (p : Num) : M Num := do
  let p ← common.validateP p
  if k < 1 then return 0
  return mp.exp (← logpmf k p)

/-- `logseries.py` 65-72 `cdf` -/
noncomputable def cdf (k : ℤ) (p : Num) : M Num := do
  let p ← common.validateP p
  if k < 1 then return 0
  return 1 + (← (← mp.betaincZero (ofInt k + 1) p) /. (← mp.log1p (-p)))

/-- `logseries.py` 76-83 `sf` -/
noncomputable def sf (k : ℤ) (p : Num) : M Num := do
  let p ← common.validateP p
  if k < 1 then return 1
  (-(← mp.betaincZero (ofInt k + 1) p)) /. (← mp.log1p (-p))

/-- `logseries.py` 87-92 `mean` -/
noncomputable def mean (p : Num) : M Num := do
  let p ← common.validateP p
  (← p /. (p - 1)) /. (← mp.log1p (-p))

/-- `logseries.py` 96-102 `var` -/
noncomputable def var (p : Num) : M Num := do
  let p ← common.validateP p
  let l1p ← mp.log1p (-p)
  (← (-(p * (p + l1p))) /. mp.ipow (1 - p) 2) /. mp.ipow l1p 2

/-- `logseries.py` 105-110 `mode`; the code returns `mp.one`. -/
noncomputable def mode (p : Num) : M ℤ := do
  let _ ← common.validateP p
  return 1

/-- `logseries.py` 114-123 `skewness` -/
noncomputable def skewness (p : Num) : M Num := do
  let p ← common.validateP p
  let r ← mp.log1p (-p)
  let s := p + r
  let num := p * (2 * p + 3 * r) + (1 + p) * mp.ipow r 2
  let den := -(← mp.sqrt (-p * s)) * s
  num /. den

/-- `logseries.py` 127-137 `kurtosis` -/
noncomputable def kurtosis (p : Num) : M Num := do
  let p ← common.validateP p
  let r ← mp.log1p (-p)
  let r2 := r * r
  let r3 := r2 * r
  let num := p * (p * (fin (-6) * p + r * (r * (-r - fin 4) - fin 12)) + r2 * (fin (-4) * r - fin 7)) - r3
  let den := p * mp.ipow (p + r) 2
  num /. den

end logseries

end Mpsci
