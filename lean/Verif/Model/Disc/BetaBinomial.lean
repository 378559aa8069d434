import Verif.Base.Discrete
import Verif.Model.Common
import Verif.Model.Fun.Log
import Verif.Model.Fun.Logbeta

/-! Model of `mpsci/distributions/betabinomial.py` (`k` and `n` Python integers); `nll` and `mle` are in
`Model/Fit/BetaBinomial.lean`. -/

namespace Mpsci

open Classical Num

/-- `mp.hyp3f2(a1, a2, a3, b1, b2, 1)` when `a2 = -m` is a nonpositive integer.  mpmath adds the terms up to the
first vanishing numerator; a lower parameter that vanishes only there or later is harmless. -/
noncomputable def mp.hyp3f2Poly : Num → Num → Num → Num → Num → M Num
  | fin a1, fin a2, fin a3, fin b1, fin b2 =>
    if ∃ m : ℕ, a2 = -m ∧ ∀ j < m, b1 + (j:ℝ) ≠ 0 ∧ b2 + (j:ℝ) ≠ 0 then
      .ok (fin (∑ i ∈ Finset.range (⌊-a2⌋₊ + 1), mp.poch a1 i * mp.poch a2 i * mp.poch a3 i / (mp.poch b1 i * mp.poch b2 i * i.factorial)))
    else .error .notModelled
  | _, _, _, _, _ => .error .notModelled

namespace betabinomial

/-- `betabinomial.py` 19-28 `_validate_params` (`n != int(n)` is false of a Python integer) -/
noncomputable def validateParams (n : ℤ) (a b : Num) : M (ℤ × Num × Num) := do
  if n < 0 then throw .valueError
  if a ≤ 0 then throw .valueError
  if b ≤ 0 then throw .valueError
  return (n, a, b)

/-- `betabinomial.py` 31-48 `support` -/
noncomputable def support (n : ℤ) (a b : Num) : M (List ℤ) := do
  let (n, _, _) ← validateParams n a b
  return py.range 0 (n + 1)

/-- `betabinomial.py` 52-64 `logpmf` -/
noncomputable def logpmf (k n : ℤ) (a b : Num) : M Num := do
  let (n, a, b) ← validateParams n a b
  if k < 0 then return ninf
  if n < k then return ninf
  let t1 ← fun_.logbinomial (ofInt n) (ofInt k)
  let t2 ← fun_.logbeta (ofInt k + a) (ofInt (n - k) + b)
  let t3 ← fun_.logbeta a b
  return t1 + t2 - t3

/-- `betabinomial.py` 68-77 `pmf` -/
noncomputable def pmf (k n : ℤ) (a b : Num) : M Num := do
  let (n, a, b) ← validateParams n a b
  if k < 0 then return 0
  if n < k then return 0
  return mp.exp (← logpmf k n a b)

/-- The upper tail computed in `betabinomial.py` 97-99 and 118-120 -/
noncomputable def tail (k n : ℤ) (a b : Num) : M Num := do
  let t1 ← mp.beta (ofInt n + b - ofInt k - 1) (a + ofInt k + 1)
  let t2 ← mp.hyp3f2Poly 1 (ofInt (-n + k + 1)) (a + ofInt k + 1) (ofInt (k + 2)) (ofInt (-n) - b + ofInt k + 2)
  (t1 * t2) /. (ofInt (n + 1) * (← mp.beta a b) * (← mp.beta (ofInt (n - k)) (ofInt (k + 2))))

/-- `betabinomial.py` 81-100 `cdf` -/
noncomputable def cdf (k n : ℤ) (a b : Num) : M Num := do
  let (n, a, b) ← validateParams n a b
  if k < 0 then return 0
  if n ≤ k then return 1
  return 1 - (← tail k n a b)

/-- `betabinomial.py` 104-121 `sf` -/
noncomputable def sf (k n : ℤ) (a b : Num) : M Num := do
  let (n, a, b) ← validateParams n a b
  if k < 0 then return 1
  if n ≤ k then return 0
  tail k n a b

/-- `betabinomial.py` 125-130 `mean` -/
noncomputable def mean (n : ℤ) (a b : Num) : M Num := do
  let (n, a, b) ← validateParams n a b
  ofInt n * a /. (a + b)

/-- `betabinomial.py` 134-146 `mode` -/
noncomputable def mode (n : ℤ) (a b : Num) : M ℤ := do
  let (n, a, b) ← validateParams n a b
  if a ≤ 1 ∧ b ≥ a then return 0
  if b ≤ 1 ∧ a > b then return n
  return (← py.int (mp.ceil (← ofInt (n + 1) * (a - 1) /. (a + b - 2)))) - 1

/-- `betabinomial.py` 150-156 `var` -/
noncomputable def var (n : ℤ) (a b : Num) : M Num := do
  let (n, a, b) ← validateParams n a b
  let s := a + b
  (← ofInt n * a * b * (s + ofInt n) /. mp.ipow s 2) /. (s + 1)

/-- `betabinomial.py` 160-168 `skewness` -/
noncomputable def skewness (n : ℤ) (a b : Num) : M Num := do
  let (n, a, b) ← validateParams n a b
  let s := a + b
  let f1 ← (s + ofInt (2 * n)) * (b - a) /. (s + 2)
  let f2 ← mp.sqrt (← (1 + s) /. (ofInt n * a * b * (s + ofInt n)))
  return f1 * f2

/-- `betabinomial.py` 172-185 `kurtosis` -/
noncomputable def kurtosis (n : ℤ) (a b : Num) : M Num := do
  let (n, a, b) ← validateParams n a b
  let s := a + b
  let denom := a * b * ofInt n * (s + 2) * (s + 3) * (s + ofInt n)
  let kurt ← (s + 1) * (ofInt (3 * n ^ 2) * (mp.ipow a 2 * (b + 2) + a * (b - 2) * b + 2 * mp.ipow b 2)
    + (mp.ipow a 2 - a * (4 * b + 1) + (b - 1) * b) * mp.ipow s 2
    + ofInt (3 * n) * (mp.ipow a 3 * (b + 2) + 2 * mp.ipow a 2 * mp.ipow b 2 + a * mp.ipow b 3 + 2 * mp.ipow b 3)) /. denom
  return kurt - 3

end betabinomial
end Mpsci
