import Verif.Spec.Stats
import Mathlib.MeasureTheory.Measure.Lebesgue.Basic
import Mathlib.MeasureTheory.Integral.Bochner.Set
import Mathlib.Analysis.SpecialFunctions.Log.Basic

/-!
Densities on the simplex of points with `n + 1` positive coordinates adding up to 1. Integrals are over the first `n` coordinates.
-/

namespace Mpsci.Spec

open MeasureTheory Num

/-- the first `n` coordinates of the points of the open simplex -/
def simplex (n : ℕ) : Set (Fin n → ℝ) := {y | (∀ i, 0 < y i) ∧ ∑ i, y i < 1}

/-- all `n + 1` coordinates, as a list -/
def simplexPoint {n : ℕ} (y : Fin n → ℝ) : List ℝ := List.ofFn y ++ [1 - ∑ i, y i]

/-- `pdf` is nonnegative and has integral 1 -/
def IsSimplexPdf (n : ℕ) (pdf : List Num → M Num) : Prop := ∃ f : (Fin n → ℝ) → ℝ, (∀ y ∈ simplex n, pdf (nums (simplexPoint y)) = .ok (fin (f y))) ∧
  (∀ y ∈ simplex n, 0 ≤ f y) ∧ IntegrableOn f (simplex n) ∧ ∫ y in simplex n, f y = 1

/-- `r` is the integral of `g` (a function of all coordinates) against `pdf` -/
def IsSimplexExpect (n : ℕ) (pdf : List Num → M Num) (g : (Fin (n + 1) → ℝ) → ℝ) (r : ℝ) : Prop :=
  ∃ f : (Fin n → ℝ) → ℝ, (∀ y ∈ simplex n, pdf (nums (simplexPoint y)) = .ok (fin (f y))) ∧
    IntegrableOn (fun y => g (Fin.snoc y (1 - ∑ i, y i)) * f y) (simplex n) ∧ ∫ y in simplex n, g (Fin.snoc y (1 - ∑ i, y i)) * f y = r

/-- `r` is the differential entropy of `pdf` -/
def IsSimplexEntropy (n : ℕ) (pdf : List Num → M Num) (r : M Num) : Prop :=
  ∃ (f : (Fin n → ℝ) → ℝ) (h : ℝ), (∀ y ∈ simplex n, pdf (nums (simplexPoint y)) = .ok (fin (f y))) ∧ r = .ok (fin h) ∧
    IntegrableOn (fun y => f y * Real.log (f y)) (simplex n) ∧ h = -∫ y in simplex n, f y * Real.log (f y)

end Mpsci.Spec
