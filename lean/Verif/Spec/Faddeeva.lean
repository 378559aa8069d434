import Mathlib.Analysis.Complex.Basic
import Mathlib.Analysis.Calculus.Deriv.Basic
import Mathlib.Analysis.SpecialFunctions.Trigonometric.Basic

/-! # The Faddeeva function (C69) -/

namespace Mpsci.Spec

open Complex

/-- The entire solution of `w' = -2 z w + 2 i / √π` with `w(0) = 1`. -/
def IsFaddeeva (w : ℂ → ℂ) : Prop := w 0 = 1 ∧ ∀ z, HasDerivAt w (-2 * z * w z + 2 * I / (√Real.pi : ℝ)) z

end Mpsci.Spec
