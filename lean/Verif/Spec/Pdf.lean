import Verif.Spec

/-! Densities of distributions for which there is no `cdf` function. -/

namespace Mpsci.Spec

open MeasureTheory Num

/-- C03: `pdf` is finite (off the finite set `E`), nonnegative and has integral 1. -/
def IsPdf (E : Set ℝ) (pdf : Num → M Num) : Prop :=
  E.Finite ∧ ∃ f : ℝ → ℝ, RealFnOff E pdf f ∧ (∀ x, 0 ≤ f x) ∧ Integrable f ∧ ∫ x, f x = 1

end Mpsci.Spec
