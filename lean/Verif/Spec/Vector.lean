import Verif.Spec.Stats
import Verif.Base.Mat
import Mathlib.MeasureTheory.Measure.Lebesgue.Basic
import Mathlib.MeasureTheory.Integral.Bochner.Set
import Mathlib.Analysis.SpecialFunctions.Log.Basic

/-!
Densities of vectors of `p` real numbers.
-/

namespace Mpsci.Spec

open MeasureTheory Num

/-- the vector as a list -/
noncomputable def vecList {p : ℕ} (x : Fin p → ℝ) : List Num := nums (List.ofFn x)

/-- a square matrix -/
noncomputable def matOf {p : ℕ} (S : Matrix (Fin p) (Fin p) ℝ) : mp.Mat := ⟨p, p, fun i j => if h : i < p ∧ j < p then fin (S ⟨i, h.1⟩ ⟨j, h.2⟩) else nan⟩

/-- `pdf` is finite everywhere, nonnegative and has integral 1 -/
def IsVecPdf (p : ℕ) (pdf : List Num → M Num) : Prop :=
  ∃ f : (Fin p → ℝ) → ℝ, (∀ x, pdf (vecList x) = .ok (fin (f x))) ∧ (∀ x, 0 ≤ f x) ∧ Integrable f ∧ ∫ x, f x = 1

/-- `r` is the differential entropy of `pdf` -/
def IsVecEntropy (p : ℕ) (pdf : List Num → M Num) (r : M Num) : Prop :=
  ∃ (f : (Fin p → ℝ) → ℝ) (h : ℝ), (∀ x, pdf (vecList x) = .ok (fin (f x))) ∧ r = .ok (fin h) ∧
    Integrable (fun x => f x * Real.log (f x)) ∧ h = -∫ x, f x * Real.log (f x)

end Mpsci.Spec
