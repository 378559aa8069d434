import Verif.Lemmas.Int01
import Verif.Lemmas.Halves
import Verif.Lemmas.Shape
import Verif.Base.Special

/-! More integrals over the unit interval. -/

namespace Mpsci

open Classical MeasureTheory Set

theorem int01_pow (n : ℕ) : Int01 (fun p => p ^ n) (1 / ((n:ℝ) + 1)) :=
  (int01_rpow (a := n) (by have := Nat.cast_nonneg (α := ℝ) n; linarith)).congr fun p _ _ => (Real.rpow_natCast p n).symm

theorem int01_betaFn {a b : ℝ} (ha : 0 < a) (hb : 0 < b) : Int01 (fun p => p ^ (a - 1) * (1 - p) ^ (b - 1)) (betaFn a b) := by
  have h := betaIntegrable ha hb
  rw [intervalIntegrable_iff_integrableOn_Ioo_of_le zero_le_one] at h
  refine ⟨h, ?_⟩
  rw [← betaInt_full ha hb, betaInt, intervalIntegral.integral_of_le zero_le_one, integral_Ioc_eq_integral_Ioo]

/-- The substitution `v = u^(1/d)`. -/
theorem Int01.comp_rpow {g : ℝ → ℝ} {d v : ℝ} (hd : 0 < d) (h : Int01 (fun v => d * v ^ (d - 1) * g v) v) : Int01 (fun u => g (u ^ (1 / d))) v := by
  obtain ⟨h1, h2⟩ := h
  set G : ℝ → ℝ := (Ioo (0:ℝ) 1).indicator fun v => d * v ^ (d - 1) * g v with hG
  have hd' : 0 < 1 / d := by positivity
  have e : ∀ u ∈ Ioi (0:ℝ), (1 / d * u ^ (1 / d - 1)) • G (u ^ (1 / d)) = (Ioo (0:ℝ) 1).indicator (fun u => g (u ^ (1 / d))) u := by
    intro u hu
    have hu : 0 < u := hu
    by_cases h : u < 1
    · have h3 : u ^ (1 / d) < 1 := Real.rpow_lt_one hu.le h hd'
      have e1 : (u ^ (1 / d)) ^ (d - 1) = u ^ (1 - 1 / d) := by
        rw [← Real.rpow_mul hu.le]; congr 1; field_simp
      have e2 : u ^ (1 / d - 1) * u ^ (1 - 1 / d) = 1 := by
        rw [← Real.rpow_add hu, show 1 / d - 1 + (1 - 1 / d) = 0 by ring, Real.rpow_zero]
      rw [hG, indicator_of_mem (show u ^ (1 / d) ∈ Ioo (0:ℝ) 1 from ⟨Real.rpow_pos_of_pos hu _, h3⟩),
        indicator_of_mem (show u ∈ Ioo (0:ℝ) 1 from ⟨hu, h⟩), smul_eq_mul, e1]
      calc 1 / d * u ^ (1 / d - 1) * (d * u ^ (1 - 1 / d) * g (u ^ (1 / d)))
          = (1 / d * d) * (u ^ (1 / d - 1) * u ^ (1 - 1 / d)) * g (u ^ (1 / d)) := by ring
        _ = g (u ^ (1 / d)) := by rw [e2, one_div_mul_cancel hd.ne']; ring
    · have h3 : ¬ u ^ (1 / d) < 1 := not_lt.2 (Real.one_le_rpow (not_lt.1 h) hd'.le)
      rw [hG, indicator_of_notMem (fun h' => h3 h'.2), indicator_of_notMem (fun h' => h h'.2), smul_zero]
  have hsub : Ioi (0:ℝ) ∩ Ioo 0 1 = Ioo 0 1 := inter_eq_right.2 fun x hx => hx.1
  have hi : IntegrableOn G (Ioi 0) := ((integrable_indicator_iff measurableSet_Ioo).2 h1).integrableOn
  constructor
  · have := (integrableOn_Ioi_comp_rpow_iff G hd'.ne').2 hi
    rw [abs_of_pos hd'] at this
    have := this.congr_fun e measurableSet_Ioi
    rw [IntegrableOn, integrable_indicator_iff measurableSet_Ioo, IntegrableOn, Measure.restrict_restrict measurableSet_Ioo,
      inter_comm, hsub] at this
    exact this
  · have h3 := integral_comp_rpow_Ioi_of_pos (g := G) hd'
    rw [setIntegral_congr_fun measurableSet_Ioi e, setIntegral_indicator measurableSet_Ioo, hsub, hG, setIntegral_indicator measurableSet_Ioo, hsub, h2] at h3
    exact h3

/-- For a function symmetric about 1/2, the average over the upper half. -/
theorem Int01.upper {g : ℝ → ℝ} {v : ℝ} (h : Int01 g v) (hs : ∀ p, 0 < p → p < 1 → g (1 - p) = g p) : Int01 (fun p => g ((1 + p) / 2)) v := by
  obtain ⟨h1, h2⟩ := h
  set φ : ℝ → ℝ := fun p => g ((1 + p) / 2) with hφ
  have e1 : ∀ p, 1 / 2 < p → p < 1 → g p = φ (2 * p - 1) := fun p _ _ => by simp only [hφ]; congr 1; ring
  have e2 : ∀ p, 0 < p → p < 1 / 2 → g p = φ (1 - 2 * p) := fun p h0 h1 => by
    simp only [hφ]; rw [← hs p h0 (by linarith)]; congr 1; ring
  have hi : IntegrableOn φ (Ioo 0 1) := by
    by_contra hn
    exact not_integrableOn_of_upper e1 hn h1
  have := Int01.halves (⟨hi, rfl⟩ : Int01 φ _) (⟨hi, rfl⟩ : Int01 φ _) e2 e1
  refine ⟨hi, ?_⟩
  rw [← h2, this.2]; ring

/-- Square integrability of an affine image. -/
theorem not_integrableOn_affine_sq {g : ℝ → ℝ} {a b : ℝ} (hg : Measurable g) (hb : b ≠ 0)
    (h : ¬ MeasureTheory.IntegrableOn (fun p => g p ^ 2) (Set.Ioo 0 1)) :
    ¬ MeasureTheory.IntegrableOn (fun p => (a + b * g p) ^ 2) (Set.Ioo 0 1) := fun hi => h <| by
  have i0 : MeasureTheory.IntegrableOn (fun _ : ℝ => a ^ 2) (Set.Ioo (0:ℝ) 1) := (Int01.const _).1
  refine MeasureTheory.Integrable.mono' ((hi.add i0).const_mul (2 / b ^ 2)) (hg.pow_const 2).aestronglyMeasurable
    (Filter.Eventually.of_forall fun p => ?_)
  have hb2 : 0 < b ^ 2 := by positivity
  simp only [Pi.add_apply, Real.norm_eq_abs, abs_of_nonneg (sq_nonneg (g p))]
  rw [div_mul_eq_mul_div, le_div_iff₀ hb2]
  nlinarith [sq_nonneg (2 * a + b * g p)]

/-- A function that grows at 1 at least as fast as a nonintegrable power. -/
theorem not_integrableOn_tail {g : ℝ → ℝ} {a c q : ℝ} (ha : a ≤ -1) (hc : 0 < c) (h0 : 0 ≤ q) (h1 : q < 1)
    (h : ∀ p, q < p → p < 1 → c * (1 - p) ^ a ≤ g p) : ¬ IntegrableOn g (Ioo 0 1) := fun hi => by
  have h2 : IntegrableOn (fun p => g (1 - p)) (Ioo 0 1) := integrableOn_reflect (by simpa using hi)
  have h3 : IntegrableOn (fun p : ℝ => p ^ a) (Ioo 0 (1 - q)) := by
    refine Integrable.mono' ((h2.mono_set (Ioo_subset_Ioo_right (by linarith))).const_mul c⁻¹) (by fun_prop) ?_
    filter_upwards [ae_restrict_mem measurableSet_Ioo] with p hp
    have := h (1 - p) (by linarith [hp.2]) (by linarith [hp.1])
    rw [sub_sub_cancel] at this
    rw [Real.norm_of_nonneg (Real.rpow_nonneg hp.1.le _), inv_mul_eq_div, le_div_iff₀ hc]
    linarith
  rw [intervalIntegral.integrableOn_Ioo_rpow_iff (by linarith)] at h3
  linarith

end Mpsci
