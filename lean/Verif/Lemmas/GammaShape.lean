import Verif.Lemmas.GammaDist
import Mathlib.MeasureTheory.Integral.DominatedConvergence
import Mathlib.Analysis.SpecificLimits.Normed

/-! The distribution function of the gamma distribution as a function of the shape. -/

namespace Mpsci.gammaD

open MeasureTheory Set Filter Topology

variable {k x : ℝ}

theorem gammaInt_pos (hk : 0 < k) (hx : 0 < x) : 0 < gammaInt k 0 x := by
  have h := P_pos hk hx
  rw [P] at h
  exact (div_pos_iff_of_pos_right (Gpos hk)).1 h

theorem gammaInt_lt {k' : ℝ} (hk : 0 < k) (h : k < k') (hx : 0 < x) : gammaInt k' 0 x < x ^ (k' - k) * gammaInt k 0 x := by
  have hk' := hk.trans h
  have i1 := (intervalInt hk le_rfl hx.le).const_mul (x ^ (k' - k))
  have i2 := intervalInt hk' le_rfl hx.le
  have := intervalIntegral.intervalIntegral_pos_of_pos_on (i1.sub i2) (fun t ht => ?_) hx
  · rw [intervalIntegral.integral_sub i1 i2, intervalIntegral.integral_const_mul] at this
    rw [gammaInt, gammaInt]; linarith
  · have h1 : t ^ (k' - 1) = t ^ (k' - k) * t ^ (k - 1) := by rw [← Real.rpow_add ht.1]; ring_nf
    have h2 : t ^ (k' - k) < x ^ (k' - k) := Real.rpow_lt_rpow ht.1.le ht.2 (by linarith)
    have h3 : 0 < t ^ (k - 1) := Real.rpow_pos_of_pos ht.1 _
    have h4 := Real.exp_pos (-t)
    have : 0 < (x ^ (k' - k) - t ^ (k' - k)) * (t ^ (k - 1) * Real.exp (-t)) := mul_pos (by linarith) (by positivity)
    simp only [h1]
    linarith

theorem le_gammaTail {k' : ℝ} (hk : 0 < k) (h : k < k') (hx : 0 < x) : x ^ (k' - k) * gammaTail k x ≤ gammaTail k' x := by
  have hk' := hk.trans h
  have hs : Ioi x ⊆ Ioi 0 := Ioi_subset_Ioi hx.le
  rw [gammaTail, gammaTail, ← integral_const_mul]
  refine setIntegral_mono_on (((intOn hk).mono_set hs).const_mul _) ((intOn hk').mono_set hs) measurableSet_Ioi fun t ht => ?_
  have ht0 : 0 < t := hx.trans ht
  have h1 : t ^ (k' - 1) = t ^ (k' - k) * t ^ (k - 1) := by rw [← Real.rpow_add ht0]; ring_nf
  have h2 : x ^ (k' - k) ≤ t ^ (k' - k) := Real.rpow_le_rpow hx.le (le_of_lt ht) (by linarith)
  have h3 : 0 < t ^ (k - 1) := Real.rpow_pos_of_pos ht0 _
  rw [h1, mul_assoc]
  exact mul_le_mul_of_nonneg_right h2 (mul_pos h3 (Real.exp_pos _)).le

/-- `P k x` decreases in the shape `k`. -/
theorem P_strictAnti (hx : 0 < x) : StrictAntiOn (fun k => P k x) (Ioi 0) := by
  intro k hk k' hk' h
  have h1 := gammaInt_lt hk h hx
  have h2 := le_gammaTail hk h hx
  have e1 := gammaTail_eq hk hx.le
  have e2 := gammaTail_eq hk' hx.le
  have g1 := Gpos hk
  have g2 := Gpos hk'
  have hc : 0 < x ^ (k' - k) := Real.rpow_pos_of_pos hx _
  have p1 := P_pos hk hx
  have q1 := P_lt_one hk hx.le
  have q2 := P_lt_one hk' hx.le
  rw [div_eq_iff g1.ne'] at e1
  rw [div_eq_iff g2.ne'] at e2
  have e3 : gammaInt k 0 x = P k x * Real.Gamma k := by rw [P, div_mul_cancel₀ _ g1.ne']
  have e4 : gammaInt k' 0 x = P k' x * Real.Gamma k' := by rw [P, div_mul_cancel₀ _ g2.ne']
  rw [e3, e4] at h1
  rw [e1, e2] at h2
  show P k' x < P k x
  by_contra hcon
  have hcon := not_lt.1 hcon
  have a1 : P k x * Real.Gamma k' < x ^ (k' - k) * (P k x * Real.Gamma k) := lt_of_le_of_lt (mul_le_mul_of_nonneg_right hcon g2.le) h1
  have a2 : Real.Gamma k' < x ^ (k' - k) * Real.Gamma k := by
    have : P k x * Real.Gamma k' < P k x * (x ^ (k' - k) * Real.Gamma k) := by linarith
    exact lt_of_mul_lt_mul_left this p1.le
  have a3 : (1 - P k' x) * Real.Gamma k' ≤ (1 - P k x) * Real.Gamma k' := mul_le_mul_of_nonneg_right (by linarith) g2.le
  have a4 : (1 - P k x) * (x ^ (k' - k) * Real.Gamma k) ≤ (1 - P k x) * Real.Gamma k' := by linarith
  exact absurd (le_of_mul_le_mul_left a4 (by linarith)) (not_le.2 a2)

theorem P_cont_k (hx : 0 < x) : ContinuousOn (fun k => P k x) (Ioi 0) := by
  intro k hk
  have hk : 0 < k := hk
  refine ContinuousAt.continuousWithinAt ?_
  refine ContinuousAt.div ?_ (Gamma_deriv hk).continuousAt (Gpos hk).ne'
  refine intervalIntegral.continuousAt_of_dominated_interval
    (bound := fun t => t ^ (k / 2 - 1) * Real.exp (-t) + t ^ (2 * k - 1) * Real.exp (-t)) ?_ ?_
    ((intervalInt (half_pos hk) le_rfl hx.le).add (intervalInt (by positivity) le_rfl hx.le)) ?_
  · exact Eventually.of_forall fun k => Measurable.aestronglyMeasurable (by fun_prop)
  · filter_upwards [Ioo_mem_nhds (half_lt_self hk) (by linarith : k < 2 * k)] with y hy
    refine Eventually.of_forall fun t ht => ?_
    rw [uIoc_of_le hx.le] at ht
    have ht0 := ht.1
    rw [Real.norm_of_nonneg (by positivity), ← add_mul]
    refine mul_le_mul_of_nonneg_right ?_ (Real.exp_pos _).le
    have b1 := Real.rpow_nonneg ht0.le (k / 2 - 1)
    have b2 := Real.rpow_nonneg ht0.le (2 * k - 1)
    rcases le_total t 1 with h | h
    · have := Real.rpow_le_rpow_of_exponent_ge ht0 h (show k / 2 - 1 ≤ y - 1 by linarith [hy.1])
      linarith
    · have := Real.rpow_le_rpow_of_exponent_le h (show y - 1 ≤ 2 * k - 1 by linarith [hy.2])
      linarith
  · refine Eventually.of_forall fun t ht => ?_
    rw [uIoc_of_le hx.le] at ht
    have ht0 := ht.1
    exact ((Real.continuousAt_const_rpow ht0.ne').comp (by fun_prop)).mul continuousAt_const

/-- small shapes -/
theorem exists_shape_gt (hx : 0 < x) {p : ℝ} (hp : p < 1) : ∃ k, 0 < k ∧ p < P k x := by
  have h : Tendsto (fun k : ℝ => k / Real.Gamma (k + 1) * (1 + 1 / x)) (𝓝 0) (𝓝 (0 / Real.Gamma (0 + 1) * (1 + 1 / x))) := by
    have c : ContinuousAt (fun k : ℝ => Real.Gamma (k + 1)) 0 := by
      have h1 : ContinuousAt Real.Gamma (0 + 1) := (Gamma_deriv (by norm_num)).continuousAt
      exact ContinuousAt.comp (f := fun k : ℝ => k + 1) h1 (by fun_prop)
    have c2 : ContinuousAt (fun k : ℝ => k / Real.Gamma (k + 1) * (1 + 1 / x)) 0 :=
      (continuousAt_id.div c (by simp)).mul continuousAt_const
    exact c2
  rw [zero_div, zero_mul] at h
  have h1 := (h.mono_left (nhdsWithin_le_nhds (s := Ioi 0))).eventually (gt_mem_nhds (by linarith : 0 < 1 - p))
  obtain ⟨k, h2, h3⟩ := (h1.and (Ioo_mem_nhdsGT (zero_lt_one' ℝ))).exists
  have hk := h3.1
  refine ⟨k, hk, ?_⟩
  have hs : Ioi x ⊆ Ioi 0 := Ioi_subset_Ioi hx.le
  have hi : IntegrableOn (fun t : ℝ => Real.exp (-t)) (Ioi 0) := by simpa using intOn (k := 1) one_pos
  have h4 : gammaTail k x ≤ 1 + 1 / x := by
    calc gammaTail k x ≤ ∫ t in Ioi x, (1 + 1 / x) * Real.exp (-t) := by
          refine setIntegral_mono_on ((intOn hk).mono_set hs) ((hi.mono_set hs).const_mul _) measurableSet_Ioi fun t ht => ?_
          have ht0 : 0 < t := hx.trans ht
          refine mul_le_mul_of_nonneg_right ?_ (Real.exp_pos _).le
          have a : t ^ (k - 1) ≤ x ^ (k - 1) := Real.rpow_le_rpow_of_nonpos hx (le_of_lt ht) (by linarith [h3.2])
          refine a.trans ?_
          have b : 0 < 1 / x := by positivity
          rcases le_total x 1 with hx1 | hx1
          · have := Real.rpow_le_rpow_of_exponent_ge hx hx1 (show (-1:ℝ) ≤ k - 1 by linarith)
            rw [Real.rpow_neg_one, ← one_div] at this; linarith
          · have := Real.rpow_le_rpow_of_exponent_le hx1 (show k - 1 ≤ 0 by linarith [h3.2])
            rw [Real.rpow_zero] at this; linarith
      _ = (1 + 1 / x) * Real.exp (-x) := by rw [integral_const_mul, integral_exp_neg_Ioi]
      _ ≤ (1 + 1 / x) * 1 := mul_le_mul_of_nonneg_left (Real.exp_le_one_iff.2 (by linarith)) (by positivity)
      _ = _ := mul_one _
  have h5 := gammaTail_eq hk hx.le
  have hg := Gpos hk
  have h6 : gammaTail k x / Real.Gamma k ≤ (1 + 1 / x) / Real.Gamma k := div_le_div_of_nonneg_right h4 hg.le
  have h7 : (1 + 1 / x) / Real.Gamma k = k / Real.Gamma (k + 1) * (1 + 1 / x) := by
    rw [Real.Gamma_add_one hk.ne']; field_simp
  linarith

/-- large shapes -/
theorem exists_shape_lt (hx : 0 < x) {p : ℝ} (hp : 0 < p) : ∃ k, 0 < k ∧ P k x < p := by
  have h := (FloorSemiring.tendsto_pow_div_factorial_atTop x).mul_const x
  rw [zero_mul] at h
  obtain ⟨n, hn⟩ := (h.eventually (gt_mem_nhds hp)).exists
  have hk : (0:ℝ) < n + 1 := by positivity
  refine ⟨n + 1, hk, lt_of_le_of_lt ?_ hn⟩
  have h1 : gammaInt (n + 1) 0 x ≤ x ^ n * x := by
    have : gammaInt (n + 1) 0 x ≤ ∫ _ in (0:ℝ)..x, x ^ n := by
      refine intervalIntegral.integral_mono_on hx.le (intervalInt hk le_rfl hx.le) (by simp) fun t ht => ?_
      rw [add_sub_cancel_right, Real.rpow_natCast]
      have a : t ^ n ≤ x ^ n := pow_le_pow_left₀ ht.1 ht.2 n
      have b : Real.exp (-t) ≤ 1 := Real.exp_le_one_iff.2 (by linarith [ht.1])
      have c : 0 ≤ t ^ n := pow_nonneg ht.1 n
      nlinarith [Real.exp_pos (-t)]
    refine this.trans (le_of_eq ?_)
    rw [intervalIntegral.integral_const, smul_eq_mul]; ring
  rw [P, Real.Gamma_nat_eq_factorial, div_mul_eq_mul_div]
  exact div_le_div_of_nonneg_right h1 (by positivity)

theorem exists_shape (hx : 0 < x) {p : ℝ} (h0 : 0 < p) (h1 : p < 1) : ∃ k, 0 < k ∧ P k x = p := by
  obtain ⟨a, ha, ha'⟩ := exists_shape_gt hx h1
  obtain ⟨b, hb, hb'⟩ := exists_shape_lt hx h0
  have hs : uIcc b a ⊆ Ioi 0 := fun t ht => lt_of_lt_of_le (lt_min hb ha) ht.1
  obtain ⟨k, hk, e⟩ := intermediate_value_uIcc ((P_cont_k hx).mono hs)
    (show p ∈ uIcc (P b x) (P a x) from ⟨(min_le_left _ _).trans hb'.le, ha'.le.trans (le_max_right _ _)⟩)
  exact ⟨k, hs hk, e⟩

end Mpsci.gammaD
