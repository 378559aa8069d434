import Verif.Base.Num
import Verif.Base.Py

/-!
Model of `mpsci/stats/_fisher_exact.py`.  Python integers and `Fraction`s are exact, so this model
is exact as well (`ℤ`, `ℚ`), and it is computable.
-/

namespace Mpsci.fisherExact

/-- `_fisher_exact.py` 16-19: one pass of the loop body; the state is `(n, ntok, ktok)`. -/
def combStep (st : ℤ × ℤ × ℤ) (t : ℤ) : ℤ × ℤ × ℤ :=
  let (n, ntok, ktok) := st
  (n - 1, ntok * n, ktok * t)

/-- `_fisher_exact.py` 8-21. -/
def comb (n k : ℤ) : ℤ :=
  if 0 ≤ k ∧ k ≤ n then
    let (_, ntok, ktok) := (py.range 1 (min k (n - k) + 1)).foldl combStep (n, 1, 1)
    ntok.fdiv ktok
  else 0

/-- `_fisher_exact.py` 24-29. -/
def numCombs (a row0sum col0sum n : ℤ) : ℤ :=
  let m01 := row0sum - a
  let m10 := col0sum - a
  let m11 := n - (a + m01 + m10)
  comb (a + m01) a * comb (m10 + m11) m10

/-- The value of `oddsratio`: a `Fraction`, `math.inf` or `math.nan`. -/
inductive Odds
  | frac (q : ℚ) | inf | nan
  deriving DecidableEq

/-- `_fisher_exact.py` 85-91. -/
def oddsratio (a b c d : ℤ) : Odds :=
  if b * c ≠ 0 then .frac (a * d / (b * c) : ℚ)
  else if a * d ≠ 0 then .inf else .nan

/-- `_fisher_exact.py` 107-111 and 113-117: a `for` loop with `break`.  The state is the loop
variable (unbound before the first pass) and `count`. -/
def scan (num : ℤ → ℤ) (tcount : ℤ) : List ℤ → Option ℤ → ℤ → Option ℤ × ℤ
  | [], m00, count => (m00, count)
  | m :: ms, _, count =>
    if num m > tcount then (some m, count) else scan num tcount ms (some m) (count + num m)

/-- `Fraction(count, total)` -/
def fraction (count total : ℤ) : M ℚ :=
  if total = 0 then .error .zeroDivision else .ok (count / total : ℚ)

/-- `_fisher_exact.py` 81-135.  The table is `[[a, b], [c, d]]`. -/
def fisherExact (a b c d : ℤ) (alternative : String) : M (Odds × ℚ) := do
  let odds := oddsratio a b c d
  let row0sum := a + b
  let row1sum := c + d
  let col0sum := a + c
  let n := row0sum + row1sum
  let totalPossibleTables := comb n col0sum
  let aMax := min row0sum col0sum
  let aMin := max 0 (col0sum - row1sum)
  if alternative = "two-sided" then
    let tcount := comb row0sum a * comb row1sum c
    let num := fun m00 => numCombs m00 row0sum col0sum n
    let (m00, count) := scan num tcount (py.range aMin (aMax + 1)) none 0
    match m00 with
    | none => .error .nameError
    | some m00 =>
      let (_, count) := scan num tcount (py.rangeDown aMax m00) (some m00) count
      return (odds, ← fraction count totalPossibleTables)
  else
    let (start, stop) ←
      if alternative = "greater" then Except.ok (a, aMax)
      else if alternative = "less" then Except.ok (aMin, a)
      else Except.error Err.valueError
    let count := (py.range start (stop + 1)).foldl
      (fun count m00 => count + numCombs m00 row0sum col0sum n) 0
    return (odds, ← fraction count totalPossibleTables)

end Mpsci.fisherExact
