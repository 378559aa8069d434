import Verif.Spec
import Mathlib.MeasureTheory.Integral.IntervalIntegral.Basic

/-! What C56 means: densities on a circle, described by an interval of length `2π`. -/

namespace Mpsci.Spec

open Num MeasureTheory

/-- `pdf` is a probability density on the circle: real, nonnegative, of period `2π`, and it integrates to 1 over the interval
that `support` returns, which has length `2π`. -/
def IsCircDensity (pdf : Num → M Num) (support : M (Num × Num)) (f : ℝ → ℝ) (a b : ℝ) : Prop :=
  (∀ x : ℝ, pdf (fin x) = .ok (fin (f x))) ∧ support = .ok (fin a, fin b) ∧ b - a = 2 * Real.pi ∧
  (∀ x, 0 ≤ f x) ∧ (∀ x, f (x + 2 * Real.pi) = f x) ∧ IntervalIntegrable f volume a b ∧ ∫ x in a..b, f x = 1

/-- The expectations of `cos x` and `sin x`. -/
def IsFirstCircMoment (f : ℝ → ℝ) (a b C S : ℝ) : Prop := ∫ x in a..b, Real.cos x * f x = C ∧ ∫ x in a..b, Real.sin x * f x = S

/-- `m` is the circular mean: the direction of the vector `(E cos x, E sin x)`, which is not zero. -/
def IsCircMean (f : ℝ → ℝ) (a b m : ℝ) : Prop :=
  ∃ R, 0 < R ∧ IsFirstCircMoment f a b (R * Real.cos m) (R * Real.sin m)

/-- `v` is the circular variance: 1 minus the length of that vector. -/
def IsCircVar (f : ℝ → ℝ) (a b v : ℝ) : Prop :=
  ∃ C S, IsFirstCircMoment f a b C S ∧ v = 1 - Real.sqrt (C ^ 2 + S ^ 2)

end Mpsci.Spec
