import Verif.Lemmas.Quantile

/-! Integrals over the two halves of the unit interval, for symmetric distributions. -/

namespace Mpsci

open Classical MeasureTheory Set

theorem int_upper_half {φ : ℝ → ℝ} :
    IntervalIntegrable (fun p => φ (2 * p - 1)) volume (1 / 2) 1 ↔ IntervalIntegrable φ volume 0 1 := by
  have h1 := IntervalIntegrable.comp_mul_left_iff (a := 1) (b := 2) (f := fun x => φ (x - 1)) (c := 2) two_ne_zero
  have h2 := IntervalIntegrable.comp_sub_right_iff (a := 0) (b := 1) (f := φ) (c := 1)
  norm_num at h1 h2 ⊢
  exact h1.trans h2

theorem int_lower_half {φ : ℝ → ℝ} :
    IntervalIntegrable (fun p => φ (1 - 2 * p)) volume 0 (1 / 2) ↔ IntervalIntegrable φ volume 0 1 := by
  have h1 := IntervalIntegrable.comp_mul_left_iff (a := 0) (b := 1) (f := fun x => φ (1 - x)) (c := 2) two_ne_zero
  have h2 := IntervalIntegrable.comp_sub_left_iff (a := 1) (b := 0) (f := φ) 1
  norm_num at h1 h2 ⊢
  exact h1.trans (h2.trans ⟨fun h => h.symm, fun h => h.symm⟩)

theorem not_integrableOn_of_upper {g φ : ℝ → ℝ} (h : ∀ p, 1 / 2 < p → p < 1 → g p = φ (2 * p - 1))
    (hn : ¬ IntegrableOn φ (Ioo 0 1)) : ¬ IntegrableOn g (Ioo 0 1) := by
  intro hi
  refine hn ?_
  rw [← intervalIntegrable_iff_integrableOn_Ioo_of_le zero_le_one, ← int_upper_half,
    intervalIntegrable_iff_integrableOn_Ioo_of_le (by norm_num)]
  exact (hi.mono_set (Ioo_subset_Ioo_left (by norm_num))).congr_fun (fun p hp => h p hp.1 hp.2) measurableSet_Ioo

theorem Int01.halves {φ ψ g : ℝ → ℝ} {a b : ℝ} (hφ : Int01 φ a) (hψ : Int01 ψ b)
    (h1 : ∀ p, 0 < p → p < 1 / 2 → g p = ψ (1 - 2 * p)) (h2 : ∀ p, 1 / 2 < p → p < 1 → g p = φ (2 * p - 1)) :
    Int01 g ((a + b) / 2) := by
  obtain ⟨i1, e1⟩ := hφ
  obtain ⟨i2, e2⟩ := hψ
  rw [← intervalIntegrable_iff_integrableOn_Ioo_of_le zero_le_one] at i1 i2
  rw [← integral_Ioc_eq_integral_Ioo, ← intervalIntegral.integral_of_le zero_le_one] at e1 e2
  have j1 := int_upper_half.2 i1
  have j2 := int_lower_half.2 i2
  have k1 : IntervalIntegrable g volume (1 / 2) 1 := by
    rw [intervalIntegrable_iff_integrableOn_Ioo_of_le (by norm_num)] at j1 ⊢
    exact j1.congr_fun (fun p hp => (h2 p hp.1 hp.2).symm) measurableSet_Ioo
  have k2 : IntervalIntegrable g volume 0 (1 / 2) := by
    rw [intervalIntegrable_iff_integrableOn_Ioo_of_le (by norm_num)] at j2 ⊢
    exact j2.congr_fun (fun p hp => (h1 p hp.1 hp.2).symm) measurableSet_Ioo
  refine ⟨(intervalIntegrable_iff_integrableOn_Ioo_of_le zero_le_one).1 (k2.trans k1), ?_⟩
  rw [← integral_Ioc_eq_integral_Ioo, ← intervalIntegral.integral_of_le zero_le_one,
    ← intervalIntegral.integral_add_adjacent_intervals k2 k1]
  have l1 : ∫ p in (1 / 2:ℝ)..1, g p = a / 2 := by
    have : ∫ p in (1 / 2:ℝ)..1, φ (2 * p - 1) = a / 2 := by
      rw [intervalIntegral.integral_comp_mul_sub φ two_ne_zero]; norm_num [e1]; ring
    rw [← this, intervalIntegral.integral_of_le (by norm_num), intervalIntegral.integral_of_le (by norm_num),
      integral_Ioc_eq_integral_Ioo, integral_Ioc_eq_integral_Ioo]
    exact setIntegral_congr_fun measurableSet_Ioo fun p hp => h2 p hp.1 hp.2
  have l2 : ∫ p in (0:ℝ)..1 / 2, g p = b / 2 := by
    have : ∫ p in (0:ℝ)..1 / 2, ψ (1 - 2 * p) = b / 2 := by
      rw [intervalIntegral.integral_comp_sub_mul ψ two_ne_zero]; norm_num [e2]; ring
    rw [← this, intervalIntegral.integral_of_le (by norm_num), intervalIntegral.integral_of_le (by norm_num),
      integral_Ioc_eq_integral_Ioo, integral_Ioc_eq_integral_Ioo]
    exact setIntegral_congr_fun measurableSet_Ioo fun p hp => h1 p hp.1 hp.2
  rw [l1, l2]; ring

end Mpsci
