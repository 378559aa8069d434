import Verif.Model.Fit.Counts
import Verif.Model.Disc.Logseries
import Verif.Base.Const

/-! Model of `nll` and `mle` in `mpsci/distributions/logseries.py`. -/

namespace Mpsci

open Classical Num

/-- `mp.lambertw(x, k=-1).real` for `-1/e <= x < 0`: the solution `w <= -1` of `w*exp(w) = x`. -/
noncomputable def mp.lambertwM1 : Num → M Num
  | fin x => if h : ∃ w : ℝ, w ≤ -1 ∧ w * Real.exp w = x then .ok (fin h.choose) else .error .notModelled
  | _ => .error .notModelled

namespace logseries

open common

/-- `logseries.py` 141-150 `nll` -/
noncomputable def nll (x : List Num) (p : Num) (counts : Option (List Num)) : M Num := do
  let p ← validateP p
  if ¬ ∀ t ∈ x, mp.isint t ∧ t ≥ 1 then throw .valueError
  let counts ← validateCounts x counts true
  nllCounts (logpmf · p) x counts

/-- `logseries.py` 153-161 `_approx_inv_mle_func` -/
noncomputable def approxInvMleFunc (m : Num) : M Num := do
  let pa := 1 + (← 1 /. (m * (← mp.lambertwM1 (← (-1) /. m))))
  let m ← m /. pa
  let pa2 := 1 + (← 1 /. (m * (← mp.lambertwM1 (← (-1) /. m))))
  if pa2 < 1 then return pa2
  return pa

/-- `logseries.py` 164-165 `_mle_func` -/
noncomputable def mleFunc (p : Num) : M Num := do (-p) /. ((1 - p) * (← mp.log1p (-p)))

/-- `logseries.py` 168-208 `mle`.  `method` is not an argument of `mp.findroot`, so that both calls use the secant method; they are the
parameters `findroot1` (one starting point) and `findroot2` (two).  The counts are not validated. -/
noncomputable def mle (findroot1 : (Num → M Num) → Num → M Num) (findroot2 : (Num → M Num) → Num → Num → M Num)
    (x : List Num) (counts : Option (List Num)) : M Num := do
  let m ← stats.mean x counts
  if m =. 1 then return 0
  if m > fin (Real.exp 1) then
    let pa ← approxInvMleFunc m
    findroot1 (fun t => do return (← mleFunc t) - m) pa
  else
    let slope ← fin (826 / 1000) /. (fin (Real.exp 1) - 1)
    let low := slope * (m - 1)
    let high ← py.min [2 * (m - 1), fin (8264 / 10000)]
    findroot2 (fun t => do return (← mleFunc t) - m) low high

end logseries

end Mpsci
