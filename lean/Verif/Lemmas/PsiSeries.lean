import Mathlib.Analysis.Calculus.SmoothSeries
import Mathlib.NumberTheory.ZetaValues
import Mathlib.Analysis.PSeries
import Verif.Lemmas.LogGammaDist

/-! The derivatives of the digamma function as series, and their values at 1. -/

namespace Mpsci

open Set Filter Topology loggammaD

theorem hasSum_psi1 {x : ℝ} (hx : 0 < x) : HasSum (fun n : ℕ => 1 / (x + n) ^ 2) (psi1 x) := by
  have h : ∀ n : ℕ, ∑ i ∈ Finset.range n, 1 / (x + i) ^ 2 = psi1 x - psi1 (x + n) := by
    intro n
    induction n with
    | zero => simp
    | succ n ih =>
      rw [Finset.sum_range_succ, ih, Nat.cast_succ, ← add_assoc, psi1_add_one (by positivity)]; ring
  rw [hasSum_iff_tendsto_nat_of_nonneg fun n => by positivity]
  simp only [h]
  simpa using tendsto_const_nhds.sub (tendsto_psi1 hx)

theorem summable_shift {k : ℕ} (hk : 2 ≤ k) : Summable fun n : ℕ => 1 / ((1 / 2 : ℝ) + n) ^ k := by
  refine (summable_nat_add_iff 1).1 ?_
  refine Summable.of_nonneg_of_le (fun n => by positivity) (fun n => ?_)
    ((summable_nat_add_iff 1).2 (Real.summable_one_div_nat_pow.2 (by omega : 1 < k)))
  refine one_div_le_one_div_of_le (by positivity) (pow_le_pow_left₀ (by positivity) (by push_cast; linarith) _)

theorem hasDerivAt_series {k : ℕ} (hk : 2 ≤ k) {x : ℝ} (hx : 1 / 2 < x) :
    HasDerivAt (fun y : ℝ => ∑' n : ℕ, 1 / (y + n) ^ k) (-(k:ℝ) * ∑' n : ℕ, 1 / (x + n) ^ (k + 1)) x := by
  rw [← tsum_mul_left]
  refine hasDerivAt_tsum_of_isPreconnected (u := fun n : ℕ => (k:ℝ) * (1 / ((1 / 2 : ℝ) + n) ^ (k + 1)))
    (t := Ioi (1 / 2 : ℝ)) (y₀ := x) (g := fun (n : ℕ) (y : ℝ) => 1 / (y + n) ^ k) (g' := fun (n : ℕ) (y : ℝ) => -(k:ℝ) * (1 / (y + n) ^ (k + 1))) ((summable_shift (by omega)).mul_left _) isOpen_Ioi isPreconnected_Ioi
    (fun n y hy => ?_) (fun n y hy => ?_) hx (Summable.of_nonneg_of_le (fun n => ?_) (fun n => ?_) (summable_shift hk)) hx
  · have hy : 1 / 2 < y := hy
    have h : y + n ≠ 0 := by positivity
    have := (((hasDerivAt_id y).add_const (n:ℝ)).pow k).inv (pow_ne_zero k h)
    simp only [id] at this
    simp only [one_div]
    refine this.congr_deriv ?_
    obtain ⟨j, rfl⟩ : ∃ j, k = j + 1 := ⟨k - 1, by omega⟩
    simp only [Nat.add_sub_cancel, Pi.pow_apply]
    field_simp
    ring
  · have hy : 1 / 2 < y := hy
    have h0 : 0 < y := by linarith
    rw [norm_mul, norm_neg, Real.norm_of_nonneg (by positivity), Real.norm_of_nonneg (by positivity)]
    refine mul_le_mul_of_nonneg_left (one_div_le_one_div_of_le (by positivity) ?_) (by positivity)
    exact pow_le_pow_left₀ (by positivity) (by linarith) _
  · have : 0 < x := by linarith
    positivity
  · exact one_div_le_one_div_of_le (by positivity) (pow_le_pow_left₀ (by positivity) (by linarith) _)

theorem psi2_eq {x : ℝ} (hx : 1 / 2 < x) : psi2 x = -2 * ∑' n : ℕ, 1 / (x + n) ^ 3 := by
  have h := hasDerivAt_series (k := 2) le_rfl hx
  refine (hasDerivAt_psi1 (by linarith)).unique (h.congr_of_eventuallyEq ?_)
  filter_upwards [lt_mem_nhds hx] with y hy using (hasSum_psi1 (by linarith)).tsum_eq.symm

theorem psi3_eq {x : ℝ} (hx : 1 / 2 < x) : psi3 x = 6 * ∑' n : ℕ, 1 / (x + n) ^ 4 := by
  have h := (hasDerivAt_series (k := 3) (by norm_num) hx).const_mul (-2)
  have h' := (hasDerivAt_psi2 (by linarith : 0 < x)).unique (h.congr_of_eventuallyEq ?_)
  · rw [h']; push_cast; ring
  · filter_upwards [lt_mem_nhds hx] with y hy using psi2_eq hy

theorem psi2_one : psi2 1 = -2 * ∑' n : ℕ, 1 / ((n:ℝ) + 1) ^ 3 := by
  rw [psi2_eq (by norm_num)]; simp only [add_comm]

theorem psi1_one : psi1 1 = Real.pi ^ 2 / 6 := by
  have h := (hasSum_nat_add_iff' 1).2 hasSum_zeta_two
  simp only [Finset.range_one, Finset.sum_singleton, Nat.cast_zero, ne_eq, OfNat.ofNat_ne_zero, not_false_eq_true, zero_pow, div_zero,
    sub_zero, Nat.cast_add, Nat.cast_one] at h
  refine (hasSum_psi1 one_pos).unique ?_
  simpa only [add_comm] using h

theorem psi3_one : psi3 1 = Real.pi ^ 4 / 15 := by
  have h := (hasSum_nat_add_iff' 1).2 hasSum_zeta_four
  simp only [Finset.range_one, Finset.sum_singleton, Nat.cast_zero, ne_eq, OfNat.ofNat_ne_zero, not_false_eq_true, zero_pow, div_zero,
    sub_zero, Nat.cast_add, Nat.cast_one] at h
  rw [psi3_eq (by norm_num)]
  have e := h.tsum_eq
  simp only [add_comm (1:ℝ)]
  rw [e]; ring

end Mpsci
