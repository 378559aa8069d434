import Verif.Model.Fun.Powm1
import Verif.Base.PyNum

/-! Models of `mpsci/stats/_goftests.py` and `mpsci/stats/_anova.py`: the test statistics.  The
p-values are in `Verif/Model/Stats/PValues.lean`. -/

namespace Mpsci.stats

open Classical Num fun_

/-- `mp.almosteq(s, t, rel_eps=rel, abs_eps=0)` for finite `s` and `t` (mpmath
`ctx_mp.py`/`ctx_base.py` `almosteq`): equal, or relative difference at most `rel`. -/
def almosteq (s t rel : ℝ) : Prop :=
  |s - t| ≤ 0 ∨ (if |s| < |t| then |s - t| / |t| else |s - t| / |s|) ≤ rel

/-- The check at `_goftests.py` 19-23 and 49-53.  For sums that are not finite the comparison is
false (`nan`) or the sums are equal infinities; only finite sums are modelled, others raise. -/
noncomputable def checkTotals (observed expected : List Num) (rel : ℝ) : M Unit :=
  match mp.fsum observed, mp.fsum expected with
  | fin s, fin t => if almosteq s t rel then .ok () else .error .valueError
  | _, _ => .error .valueError

/-- `_goftests.py` 8-27: the statistic of `chisquare`; `rel` is `sum_rel_tol`, by default
`10*mp.eps`. -/
noncomputable def chisquareStat (observed expected : List Num) (rel : ℝ) : M Num := do
  checkTotals observed expected rel
  return mp.fsum (← (List.zip observed expected).mapM fun q =>
    ((q.1 - q.2) * (q.1 - q.2)) /. q.2)

/-- `_goftests.py` 30-57: the statistic of `gtest`. -/
noncomputable def gtestStat (observed expected : List Num) (rel : ℝ) : M Num := do
  checkTotals observed expected rel
  return mp.fsum (← (List.zip observed expected).mapM fun q => do
    return 2 * (← xlogy q.1 (← q.1 /. q.2)))

end Mpsci.stats

namespace Mpsci.stats

open Classical Num

/-- `_anova.py` 51-66: the F statistic of `anova_oneway`.  The calls `mean(group)` (`_basic.py` 38-56)
divide by `len(group)`. -/
noncomputable def anovaF (groups : List (List Num)) : M Num := do
  let numGroups := fin groups.length
  let n := fin (groups.map List.length).sum
  let grandTotal := mp.fsum (groups.map mp.fsum)
  let grandMean ← grandTotal /. n
  let v := mp.fsum (groups.map fun group =>
    mp.fsum (group.map fun g => (g - grandMean) * (g - grandMean)))
  let vb := mp.fsum (← groups.mapM fun group => do
    let m ← mp.fsum group /. fin group.length
    return fin group.length * ((m - grandMean) * (m - grandMean)))
  let vw := v - vb
  (← vb /. (numGroups - 1)) /. (← vw /. (n - numGroups))

end Mpsci.stats
