import Mathlib.Data.Nat.Choose.Basic
import Mathlib.Data.Real.Basic
import Mathlib.Algebra.BigOperators.Intervals
import Mathlib.Algebra.BigOperators.Field

/-!
# Specification of the conditional odds ratio

The margins of a 2×2 table are `r0` (first row), `r1` (second row) and `c0` (first column).  When the odds
ratio of the population is `c`, the probability of `k` in the upper left cell, given the margins, is
proportional to `binom(r0, k) binom(r1, c0 - k) c^k`.
-/

namespace Mpsci.Spec

/-- The probability of `k` in the upper left cell. -/
noncomputable def condProb (r0 r1 c0 : ℕ) (c : ℝ) (k : ℕ) : ℝ :=
  (r0.choose k : ℝ) * r1.choose (c0 - k) * c ^ k /
    ∑ j ∈ Finset.range (c0 + 1), (r0.choose j : ℝ) * r1.choose (c0 - j) * c ^ j

/-- The expected value of the upper left cell. -/
noncomputable def condMean (r0 r1 c0 : ℕ) (c : ℝ) : ℝ :=
  ∑ k ∈ Finset.range (c0 + 1), (k : ℝ) * condProb r0 r1 c0 c k

/-- The probability of at most `x` in the upper left cell, `x ≤ c0`. -/
noncomputable def condLe (r0 r1 c0 x : ℕ) (c : ℝ) : ℝ :=
  ∑ k ∈ Finset.Icc 0 x, condProb r0 r1 c0 c k

/-- The probability of at least `x` in the upper left cell. -/
noncomputable def condGe (r0 r1 c0 x : ℕ) (c : ℝ) : ℝ :=
  ∑ k ∈ Finset.Icc x c0, condProb r0 r1 c0 c k

/-- `r` is the only positive solution of `g(r) = v`. -/
def OnlySolution (g : ℝ → ℝ) (v r : ℝ) : Prop :=
  0 < r ∧ g r = v ∧ ∀ r', 0 < r' → g r' = v → r' = r

end Mpsci.Spec
