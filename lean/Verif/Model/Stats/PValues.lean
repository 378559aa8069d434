import Verif.Model.Stats.Goftests
import Verif.Model.Dist.F
import Verif.Base.GammaInc

/-! Models of `chisquare` and `gtest` (`mpsci/stats/_goftests.py`) and of `anova_oneway` (`mpsci/stats/_anova.py`) with their
p-values. -/

namespace Mpsci

open Classical Num

/-- `mp.gammainc(z, a)` with a positive `z`: the integral of `t^(z-1) e^(-t)` from `a` to infinity.  For a negative `a` the
result is complex unless `z` is an integer. -/
noncomputable def mp.gammaincUpper : Num → Num → M Num
  | fin z, fin a =>
    if 0 < z ∧ (0 ≤ a ∨ ∃ n : ℕ, z = n + 1) then .ok (fin (gammaTail z a))
    else if 0 < z then .error .complexResult else .error .notModelled
  | fin z, pinf => if 0 < z then .ok 0 else .error .notModelled
  | _, _ => .error .notModelled

namespace stats

/-- `_goftests.py` 25-26 and 55-56.  `df/2` is a Python division of integers by 2, exact in binary floating point. -/
noncomputable def gofP (observed : List Num) (stat : Num) : M Num := do
  let df : ℝ := (observed.length : ℝ) - 1
  (← mp.gammaincUpper (fin (df / 2)) (← stat /. 2)) /. (← mp.gamma (fin (df / 2)))

/-- `_goftests.py` 8-27 `chisquare`; `rel` is `sum_rel_tol`, by default `10*mp.eps`. -/
noncomputable def chisquare (observed expected : List Num) (rel : ℝ) : M (Num × Num) := do
  let chi2 ← chisquareStat observed expected rel
  return (chi2, ← gofP observed chi2)

/-- `_goftests.py` 30-57 `gtest` -/
noncomputable def gtest (observed expected : List Num) (rel : ℝ) : M (Num × Num) := do
  let stat ← gtestStat observed expected rel
  return (stat, ← gofP observed stat)

/-- `_anova.py` 13-70 `anova_oneway`; the result is the pair of the fields `f` and `p`. -/
noncomputable def anovaOneway (groups : List (List Num)) : M (Num × Num) := do
  let numGroups : ℝ := groups.length
  let n : ℝ := ((groups.map List.length).sum : ℕ)
  let F ← anovaF groups
  let dofNum := fin (numGroups - 1)
  let dofDen := fin (n - numGroups)
  let p ← fdist.sf F dofNum dofDen
  return (F, p)

end stats

end Mpsci
