import Verif.Lemmas.Fit.Pareto
import Verif.Lemmas.Dist.Benini

/-! `benini.nll`. -/

namespace Mpsci.benini

open Classical Num Spec common

variable {a b s : ℝ}

/-- C30 -/
theorem nll_spec (ha : 0 < a) (hb : 0 < b) (hs : 0 < s) :
    NllIsNegSum {x | s ≤ x} (logpdf · (fin a) (fin b) (fin s)) (nll · (fin a) (fin b) (fin s)) :=
  nll_of_fsum (l := fun x => Real.log (f a b (x / s) / s)) (fun _ hx => logpdf_ge ha hb hs (not_lt.2 hx)) fun _ hx => by
    simp only [nll, validate_ok ha hb hs, ok_bind, bounds_weak hx]

/-- C30: data below the scale are rejected. -/
theorem nll_rejects (ha : 0 < a) (hb : 0 < b) (hs : 0 < s) : NllRejects {x | s ≤ x} (nll · (fin a) (fin b) (fin s)) := by
  intro xs h
  have hbad : badLow (xs.map fin) (some (fin s)) false := by
    rw [badLow_weak]
    obtain ⟨x, hx, hs⟩ := h
    exact ⟨x, hx, not_le.1 hs⟩
  simp only [nll, validate_ok ha hb hs, ok_bind, validateXBounds_low hbad]
  rfl

/-- C30 -/
theorem nll_invalid (h : ¬ (0 < a ∧ 0 < b ∧ 0 < s)) (xs : List Num) : nll xs (fin a) (fin b) (fin s) = .error .valueError := by
  simp only [nll, validate_bad h]; rfl

/-- Non-vacuity. -/
example : (0:ℝ) < 1 ∧ (0:ℝ) < 2 ∧ (0:ℝ) < 3 ∧ ((4:ℝ) ∈ {x : ℝ | 3 ≤ x}) ∧ (1:ℝ) ∉ {x : ℝ | 3 ≤ x} := by norm_num

end Mpsci.benini
