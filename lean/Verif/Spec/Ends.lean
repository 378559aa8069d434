import Verif.Spec

/-! # The ends of a continuous distribution (C70) -/

namespace Mpsci.Spec

open Classical Num

/-- C70: `supp` returns two numbers between which all the mass lies, and no two closer ones will do: `cdf` is positive
exactly to the right of the first and less than 1 exactly to the left of the second. -/
def IsSupport (cdf : Num → M Num) (supp : M (Num × Num)) : Prop :=
  ∃ (lo hi : Num) (F : ℝ → ℝ), supp = .ok (lo, hi) ∧ RealFn cdf F ∧
    ∀ x : ℝ, (0 < F x ↔ lo < fin x) ∧ (F x < 1 ↔ fin x < hi)

end Mpsci.Spec
