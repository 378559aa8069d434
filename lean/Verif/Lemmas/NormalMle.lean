import Verif.Spec.Fit
import Mathlib.Algebra.BigOperators.Ring.List
import Mathlib.Analysis.SpecialFunctions.Log.Basic
import Mathlib.Analysis.SpecialFunctions.Sqrt
import Mathlib.Tactic.FieldSimp
import Mathlib.Tactic.LinearCombination
import Mathlib.Tactic.Positivity

/-! The likelihood of the normal distribution is largest at the sample mean and standard deviation. -/

namespace Mpsci

open Spec

theorem sum_map_sq_sub (xs : List ℝ) (c : ℝ) :
    (xs.map fun x => (x - c) ^ 2).sum = (xs.map fun x => x ^ 2).sum - 2 * c * xs.sum + xs.length * c ^ 2 := by
  induction xs with
  | nil => simp
  | cons a t ih => simp [ih]; ring

theorem sum_map_affine (xs : List ℝ) (g : ℝ → ℝ) (c d : ℝ) :
    (xs.map fun x => c + d * g x).sum = xs.length * c + d * (xs.map g).sum := by
  induction xs with
  | nil => simp
  | cons a t ih => simp [ih]; ring

theorem sum_sq_sub_mean {xs : List ℝ} (hn : xs ≠ []) (c : ℝ) :
    (xs.map fun x => (x - c) ^ 2).sum = xs.length * (sampleVar xs + (sampleMean xs - c) ^ 2) := by
  have h0 : (xs.length : ℝ) ≠ 0 := by exact_mod_cast (List.length_pos_iff.2 hn).ne'
  rw [sampleVar, mul_add, mul_div_cancel₀ _ h0, sum_map_sq_sub, sum_map_sq_sub]
  have : xs.sum = xs.length * sampleMean xs := by rw [sampleMean]; field_simp
  rw [this]; ring

theorem sampleVar_nonneg (xs : List ℝ) : 0 ≤ sampleVar xs :=
  div_nonneg (List.sum_nonneg (by simp only [List.mem_map]; rintro _ ⟨x, _, rfl⟩; positivity)) (by positivity)

/-- Equality only for constant data. -/
theorem sampleVar_eq_zero {xs : List ℝ} (hn : xs ≠ []) :
    sampleVar xs = 0 ↔ ∃ c, ∀ x ∈ xs, x = c := by
  have h0 : (0:ℝ) < xs.length := by exact_mod_cast List.length_pos_iff.2 hn
  constructor
  · intro h
    refine ⟨sampleMean xs, fun x hx => ?_⟩
    rw [sampleVar, div_eq_zero_iff, or_iff_left h0.ne'] at h
    have h1 : (x - sampleMean xs) ^ 2 ∈ xs.map fun x => (x - sampleMean xs) ^ 2 := List.mem_map_of_mem hx
    have h2 := List.single_le_sum (l := xs.map fun x => (x - sampleMean xs) ^ 2)
      (by simp only [List.mem_map]; rintro _ ⟨x, _, rfl⟩; positivity) _ h1
    have : (x - sampleMean xs) ^ 2 = 0 := le_antisymm (h ▸ h2) (sq_nonneg _)
    exact sub_eq_zero.1 (pow_eq_zero_iff two_ne_zero |>.1 this)
  · rintro ⟨c, hc⟩
    have h1 := sum_sq_sub_mean hn c
    have h2 : (xs.map fun x => (x - c) ^ 2).sum = 0 := by
      rw [List.map_congr_left (g := fun _ => (0:ℝ)) fun x hx => by rw [hc x hx]; simp]; simp
    rw [h2] at h1
    have h3 : sampleVar xs + (sampleMean xs - c) ^ 2 = 0 := by
      rcases mul_eq_zero.1 h1.symm with h | h
      · exact absurd h h0.ne'
      · exact h
    have := sampleVar_nonneg xs
    nlinarith [sq_nonneg (sampleMean xs - c)]

/-- The negative log-likelihood, apart from a multiple of `xs.length`. -/
theorem normal_nll_min {xs : List ℝ} (hn : xs ≠ []) (hv : 0 < sampleVar xs) (k : ℝ) (c : ℝ) {s : ℝ} (hs : 0 < s) :
    (xs.map fun x => k + Real.log (Real.sqrt (sampleVar xs)) +
      (x - sampleMean xs) ^ 2 / (2 * Real.sqrt (sampleVar xs) ^ 2)).sum ≤
    (xs.map fun x => k + Real.log s + (x - c) ^ 2 / (2 * s ^ 2)).sum := by
  have h0 : (0:ℝ) < xs.length := by exact_mod_cast List.length_pos_iff.2 hn
  have e : ∀ (c s : ℝ), (xs.map fun x => k + Real.log s + (x - c) ^ 2 / (2 * s ^ 2)).sum =
      xs.length * (k + Real.log s + (sampleVar xs + (sampleMean xs - c) ^ 2) / (2 * s ^ 2)) := fun c s => by
    have := sum_map_affine xs (fun x => (x - c) ^ 2) (k + Real.log s) (1 / (2 * s ^ 2))
    rw [sum_sq_sub_mean hn] at this
    rw [List.map_congr_left (g := fun x => k + Real.log s + 1 / (2 * s ^ 2) * (x - c) ^ 2) fun x _ => by ring, this]
    ring
  rw [e, e]
  refine mul_le_mul_of_nonneg_left ?_ h0.le
  have hq := Real.sq_sqrt hv.le
  have hL := Real.log_sqrt hv.le
  rw [hq, hL, sub_self]
  have h1 : Real.log (sampleVar xs / s ^ 2) ≤ sampleVar xs / s ^ 2 - 1 := Real.log_le_sub_one_of_pos (by positivity)
  rw [Real.log_div hv.ne' (by positivity), Real.log_pow] at h1
  have h2 : (sampleVar xs + 0 ^ 2) / (2 * sampleVar xs) = 1 / 2 := by field_simp; ring
  have h3 : sampleVar xs / s ^ 2 / 2 ≤ (sampleVar xs + (sampleMean xs - c) ^ 2) / (2 * s ^ 2) := by
    rw [div_div, mul_comm (s ^ 2)]; gcongr; nlinarith [sq_nonneg (sampleMean xs - c)]
  rw [h2]; push_cast at h1; linarith

end Mpsci
