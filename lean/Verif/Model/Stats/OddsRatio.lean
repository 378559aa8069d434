import Verif.Base.Normal
import Verif.Base.Loop
import Verif.Model.Stats.FisherExact
import Verif.Model.Disc.FishersNCHypergeometric

/-! Model of `mpsci/stats/_odds_ratio.py`.  The table is a list of rows of Python integers.  The loops of
`_solve` have fuel (see `Verif.Base.Loop`), and `mp.findroot(func, (lo, hi), solver='illinois')` is a
parameter `findroot`. -/

namespace Mpsci.oddsRatio

open Classical Num

/-- A 2x2 table `[[a, b], [c, d]]`. -/
structure Table where
  a : ℤ
  b : ℤ
  c : ℤ
  d : ℤ

/-- `_odds_ratio.py` 23-26 `_row_or_column_zero` -/
def rowOrColumnZero (t : Table) : Prop :=
  (t.a = 0 ∧ t.b = 0) ∨ (t.c = 0 ∧ t.d = 0) ∨ (t.a = 0 ∧ t.c = 0) ∨ (t.b = 0 ∧ t.d = 0)

/-- `_odds_ratio.py` 30-44 `_sample_odds_ratio`; lines 14-20 `_unpack_table_to_mpf` are inlined. -/
noncomputable def sampleOddsRatio (t : Table) : M Num :=
  if t.c > 0 ∧ t.b > 0 then (ofInt t.a * ofInt t.d) /. (ofInt t.c * ofInt t.b)
  else if t.a = 0 ∨ t.d = 0 then return nan
  else return pinf

variable (fuel : ℕ) (findroot : (Num → M Num) → Num → Num → M Num)

/-- `_odds_ratio.py` 48-79 `_solve` -/
noncomputable def solve (func : Num → M Num) : M Num := do
  let value ← func 1
  if value =. 0 then return 1
  if value > 0 then
    let nc ← loop (fun nc : Num => do return (← func nc) > 0) (fun nc => nc /. 2) fuel (← (1 : Num) /. 2)
    findroot func nc (2 * nc)
  else
    let nc ← loop (fun nc : Num => do return (← func nc) < 0) (fun nc => return nc * 2) fuel (1 * 2)
    findroot func (← nc /. 2) nc

/-- `_odds_ratio.py` 82-89 `_nc_hypergeom_mean_inverse` -/
noncomputable def ncHypergeomMeanInverse (x total ngood nsample : ℤ) : M Num :=
  solve fuel findroot fun nc => do
    return (← fishers_noncentral_hypergeometric.mean nc total ngood nsample) - ofInt x

/-- `_odds_ratio.py` 101-113 `_ci_upper`; lines 92-98 `_hypergeom_params_from_table` are inlined. -/
noncomputable def ciUpper (t : Table) (alpha : Num) : M Num := do
  if (← sampleOddsRatio t) =. pinf ∨ (← sampleOddsRatio t) =. ninf then return pinf
  solve fuel findroot fun nc => do
    return -(← fishers_noncentral_hypergeometric.cdf t.a nc (t.a + t.b + t.c + t.d) (t.a + t.b)
      (t.a + t.c)) + alpha

/-- `_odds_ratio.py` 116-126 `_ci_lower` -/
noncomputable def ciLower (t : Table) (alpha : Num) : M Num := do
  if (← sampleOddsRatio t) =. 0 then return 0
  solve fuel findroot fun nc => do
    return (← fishers_noncentral_hypergeometric.sf (t.a - 1) nc (t.a + t.b + t.c + t.d) (t.a + t.b)
      (t.a + t.c)) - alpha

/-- `_odds_ratio.py` 129-147 `_conditional_oddsratio` -/
noncomputable def conditionalOddsRatio (t : Table) : M Num := do
  let total := t.a + t.b + t.c + t.d
  let ngood := t.a + t.b
  let nsample := t.a + t.c
  let (sup, _) ← hypergeometric.supportPmf total ngood nsample
  if t.a = (← py.item sup 0) then return 0
  if t.a = (← py.item sup (-1)) then return pinf
  ncHypergeomMeanInverse fuel findroot t.a total ngood nsample

/-- `_odds_ratio.py` 151-188 `_conditional_oddsratio_ci` -/
noncomputable def conditionalOddsRatioCi (t : Table) (confidenceLevel : Num) (alternative : String) :
    M (Num × Num) := do
  if alternative = "two-sided" then
    let alpha ← (1 - confidenceLevel) /. 2
    return (← ciLower fuel findroot t alpha, ← ciUpper fuel findroot t alpha)
  else if alternative = "less" then
    return (0, ← ciUpper fuel findroot t (1 - confidenceLevel))
  else
    return (← ciLower fuel findroot t (1 - confidenceLevel), pinf)

/-- Python's `sum(x)` where `x` is an mpmath number: numbers are not iterable. -/
def sumOfNumber (_ : Num) : M Num := .error .typeError

/-- `_odds_ratio.py` 191-197, the beginning of `_sample_odds_ratio_ci`; the rest of the function
(lines 198-213) cannot be reached, because line 197 raises for every argument. -/
noncomputable def sampleOddsRatioCi (t : Table) : M (Num × Num) := do
  let oddsratio ← sampleOddsRatio t
  let _logOr ← mp.log oddsratio
  let _ ← sumOfNumber ((← (1 : Num) /. ofInt t.a) + (← (1 : Num) /. ofInt t.b) +
    (← (1 : Num) /. ofInt t.c) + (← (1 : Num) /. ofInt t.d))
  .error .typeError

/-- `_odds_ratio.py` 222-251, the fields of `OddsRatioResult`. -/
structure Result where
  table : Table
  kind : String
  alternative : String
  oddsRatio : Num
  pvalue : Num

/-- `_odds_ratio.py` 253-340 `OddsRatioResult.odds_ratio_ci` -/
noncomputable def Result.ci (r : Result) (confidenceLevel : Num) : M (Num × Num) :=
  if r.kind = "conditional" then
    if confidenceLevel < 0 ∨ confidenceLevel > 1 then .error .valueError
    else if rowOrColumnZero r.table then return (0, pinf)
    else conditionalOddsRatioCi fuel findroot r.table confidenceLevel r.alternative
  else
    if confidenceLevel < 0 ∨ confidenceLevel > 1 then .error .valueError
    else if rowOrColumnZero r.table then return (0, pinf)
    else sampleOddsRatioCi r.table

/-- `_odds_ratio.py` 443-449: the p-value for `kind='sample'`. -/
noncomputable def samplePvalue (t : Table) (logOr : Num) (alternative : String) : M Num := do
  let se ← mp.sqrt ((← (1 : Num) /. ofInt t.a) + (← (1 : Num) /. ofInt t.b) +
    (← (1 : Num) /. ofInt t.c) + (← (1 : Num) /. ofInt t.d))
  if alternative = "two-sided" then return 2 * mp.ncdf (← (-Num.abs logOr) /. se)
  else if alternative = "less" then return mp.ncdf (← logOr /. se)
  else return mp.ncdf (← (-logOr) /. se)

/-- `_odds_ratio.py` 425-426 and 9-11: the shape of the table. -/
def unpack : List (List ℤ) → M Table
  | [[a, b], [c, d]] => .ok ⟨a, b, c, d⟩
  | _ => .error .valueError

/-- `_odds_ratio.py` 343-458 `odds_ratio` -/
noncomputable def oddsRatio (table : List (List ℤ)) (kind : String := "conditional")
    (alternative : String := "two-sided") : M Result := do
  if kind ≠ "conditional" ∧ kind ≠ "sample" then throw .valueError
  if alternative ≠ "two-sided" ∧ alternative ≠ "less" ∧ alternative ≠ "greater" then throw .valueError
  let t ← unpack table
  if t.a < 0 ∨ t.b < 0 ∨ t.c < 0 ∨ t.d < 0 then throw .valueError
  if rowOrColumnZero t then return ⟨t, kind, alternative, nan, 1⟩
  if kind = "sample" then
    let oddsratio ← sampleOddsRatio t
    let logOr ← mp.log oddsratio
    let pvalue ← samplePvalue t logOr alternative
    return ⟨t, kind, alternative, oddsratio, pvalue⟩
  else
    let oddsratio ← conditionalOddsRatio fuel findroot t
    let (_, p) ← fisherExact.fisherExact t.a t.b t.c t.d alternative
    return ⟨t, kind, alternative, oddsratio, fin p⟩

end Mpsci.oddsRatio
