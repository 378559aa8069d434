import Verif.Spec.Discrete
import Mathlib.Analysis.SpecialFunctions.Pow.Real

/-! Specification of the skewness, kurtosis and entropy of a discrete distribution. -/

namespace Mpsci.Spec

open Num

/-- C37: `r` is the skewness, the expected value of `(k - m)³` divided by `v^(3/2)`, where `m` and `v` are the mean and the variance. -/
def IsDSkewness (D : Set ℤ) (pmf : ℤ → M Num) (r : M Num) : Prop :=
  ∃ f, ∃ m v t : ℝ, Mass D pmf f ∧ HasSum (fun k : ℤ => (k : ℝ) * f k) m ∧ HasSum (fun k : ℤ => ((k : ℝ) - m) ^ 2 * f k) v ∧
    HasSum (fun k : ℤ => ((k : ℝ) - m) ^ 3 * f k) t ∧ 0 < v ∧ r = .ok (fin (t / v ^ (3 / 2 : ℝ)))

/-- C37: `r` is the excess kurtosis, the expected value of `(k - m)⁴` divided by `v²`, minus 3. -/
def IsDKurtosis (D : Set ℤ) (pmf : ℤ → M Num) (r : M Num) : Prop :=
  ∃ f, ∃ m v u : ℝ, Mass D pmf f ∧ HasSum (fun k : ℤ => (k : ℝ) * f k) m ∧ HasSum (fun k : ℤ => ((k : ℝ) - m) ^ 2 * f k) v ∧
    HasSum (fun k : ℤ => ((k : ℝ) - m) ^ 4 * f k) u ∧ 0 < v ∧ r = .ok (fin (u / v ^ 2 - 3))

/-- C37: `r` is the entropy, minus the expected value of `log pmf`. -/
def IsDEntropy (D : Set ℤ) (pmf : ℤ → M Num) (r : M Num) : Prop :=
  ∃ f, ∃ h : ℝ, Mass D pmf f ∧ HasSum (fun k : ℤ => -(f k * Real.log (f k))) h ∧ r = .ok (fin h)

end Mpsci.Spec

namespace Mpsci.Spec

open Num

/-- C37: the expected value is infinite, and `mean` says so. -/
def IsDMeanInf (D : Set ℤ) (pmf : ℤ → M Num) (mean : M Num) : Prop :=
  ∃ f, Mass D pmf f ∧ (∀ k : ℤ, 0 ≤ (k : ℝ) * f k) ∧ ¬ Summable (fun k : ℤ => (k : ℝ) * f k) ∧ mean = .ok pinf

/-- C37: the second moment is infinite, and `var` returns infinity. -/
def IsDVarInf (D : Set ℤ) (pmf : ℤ → M Num) (var : M Num) : Prop :=
  ∃ f, Mass D pmf f ∧ (∀ k, 0 ≤ f k) ∧ ¬ Summable (fun k : ℤ => (k : ℝ) ^ 2 * f k) ∧ var = .ok pinf

/-- C10 for a discrete distribution: `median` is the smallest integer `m` with `cdf m >= 1/2`. -/
def IsDMedian (cdf : ℤ → M Num) (median : M Num) : Prop :=
  ∃ m : ℤ, ∃ a b : ℝ, median = .ok (fin m) ∧ cdf m = .ok (fin a) ∧ 1 / 2 ≤ a ∧ cdf (m - 1) = .ok (fin b) ∧ b < 1 / 2

end Mpsci.Spec
