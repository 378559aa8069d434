import Verif.Spec
import Mathlib.MeasureTheory.Integral.Bochner.Set
import Mathlib.MeasureTheory.Measure.Lebesgue.Basic

/-!
# Moments of the distribution given by a quantile function

If `P` is uniform on `(0, 1)` then `invcdf(P)` has the distribution with that quantile function, so its moments are
integrals over `(0, 1)`.
-/

namespace Mpsci.Spec

open Classical Num MeasureTheory Set

/-- C37, C50: `r` is the `n`-th moment, `∫₀¹ invcdf(p)^n dp`. -/
def IsQMoment (inv : Num → M Num) (n : ℕ) (r : M Num) : Prop :=
  ∃ (Q : ℝ → ℝ) (v : ℝ), (∀ p, 0 < p → p < 1 → inv (fin p) = .ok (fin (Q p))) ∧ r = .ok (fin v) ∧
    IntegrableOn (fun p => Q p ^ n) (Ioo 0 1) ∧ ∫ p in Ioo (0:ℝ) 1, Q p ^ n = v

/-- C37: `r` is the variance, `∫₀¹ (invcdf(p) - μ)² dp` with the mean `μ`. -/
def IsQVar (inv : Num → M Num) (r : M Num) : Prop :=
  ∃ (Q : ℝ → ℝ) (μ v : ℝ), (∀ p, 0 < p → p < 1 → inv (fin p) = .ok (fin (Q p))) ∧ r = .ok (fin v) ∧
    IntegrableOn Q (Ioo 0 1) ∧ ∫ p in Ioo (0:ℝ) 1, Q p = μ ∧
    IntegrableOn (fun p => (Q p - μ) ^ 2) (Ioo 0 1) ∧ ∫ p in Ioo (0:ℝ) 1, (Q p - μ) ^ 2 = v

/-- The distribution has no `n`-th moment. -/
def NoQMoment (inv : Num → M Num) (n : ℕ) : Prop :=
  ∃ Q : ℝ → ℝ, (∀ p, 0 < p → p < 1 → inv (fin p) = .ok (fin (Q p))) ∧ ¬ IntegrableOn (fun p => Q p ^ n) (Ioo 0 1)

end Mpsci.Spec
