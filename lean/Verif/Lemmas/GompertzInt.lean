import Verif.Lemmas.Int01
import Verif.Lemmas.GammaInt
import Verif.Base.Expint
import Mathlib.MeasureTheory.Integral.DominatedConvergence
import Mathlib.MeasureTheory.Integral.IntegralEqImproper

/-! The integrals of `log(1 + x/c)` and its square against the exponential density. -/

namespace Mpsci.gompertz

open Classical MeasureTheory Set Filter Topology

variable {c : ℝ}

theorem exp_int (a : ℝ) : IntegrableOn (fun t : ℝ => Real.exp (-t)) (Ioi a) := integrableOn_exp_neg_Ioi a

theorem lg_int (n : ℕ) : IntegrableOn (fun t => Real.log t ^ n * Real.exp (-t)) (Ioi 0) := by
  have := LG_integrable n one_pos
  simpa using this

theorem lg_val (n : ℕ) : ∫ t in Ioi (0:ℝ), Real.log t ^ n * Real.exp (-t) = LG n 1 := by simp [LG]

theorem log_div_int (hc : 0 < c) : IntegrableOn (fun t => Real.log (t / c) * Real.exp (-t)) (Ioi 0) := by
  refine ((lg_int 1).sub ((exp_int 0).const_mul (Real.log c))).congr_fun (fun t ht => ?_) measurableSet_Ioi
  have ht : 0 < t := ht
  simp only [Pi.sub_apply, pow_one]
  rw [Real.log_div ht.ne' hc.ne']; ring

theorem e1_int (hc : 0 < c) : IntegrableOn (fun t : ℝ => Real.exp (-t) / t) (Ioi c) := by
  refine Integrable.mono' ((exp_int c).const_mul c⁻¹) (Measurable.aestronglyMeasurable (by fun_prop)) ?_
  filter_upwards [ae_restrict_mem measurableSet_Ioi] with t ht
  have ht : c < t := ht
  rw [Real.norm_of_nonneg (by have : 0 < t := hc.trans ht
                              positivity), div_eq_inv_mul]
  gcongr

theorem tendsto_log_exp : Tendsto (fun t : ℝ => Real.log t * Real.exp (-t)) atTop (𝓝 0) := by
  have h1 := Real.tendsto_pow_mul_exp_neg_atTop_nhds_zero 1
  refine squeeze_zero' ?_ ?_ h1
  · filter_upwards [eventually_ge_atTop 1] with t ht
    exact mul_nonneg (Real.log_nonneg ht) (Real.exp_pos _).le
  · filter_upwards [eventually_ge_atTop 1] with t ht
    rw [pow_one]
    gcongr
    exact Real.log_le_self (by linarith)

theorem log_int_val (hc : 0 < c) : ∫ t in Ioi c, Real.log (t / c) * Real.exp (-t) = e1R c := by
  have i1 := (log_div_int hc).mono_set (Ioi_subset_Ioi hc.le)
  have i2 := e1_int hc
  have hd : ∀ t ∈ Ici c, HasDerivAt (fun t => -(Real.log (t / c) * Real.exp (-t))) (Real.log (t / c) * Real.exp (-t) - Real.exp (-t) / t) t := by
    intro t ht
    have ht : 0 < t := hc.trans_le ht
    have h1 : HasDerivAt (fun t : ℝ => t / c) (1 / c) t := (hasDerivAt_id t).div_const c
    have h2 := h1.log (by positivity)
    have h3 := (hasDerivAt_neg t).exp
    refine (h2.mul h3).neg.congr_deriv ?_
    field_simp; ring
  have ht : Tendsto (fun t => -(Real.log (t / c) * Real.exp (-t))) atTop (𝓝 0) := by
    have h1 := (tendsto_log_exp.sub ((Real.tendsto_exp_neg_atTop_nhds_zero).const_mul (Real.log c))).neg
    rw [mul_zero, sub_zero, neg_zero] at h1
    refine h1.congr' ?_
    filter_upwards [eventually_gt_atTop 0] with t ht
    rw [Real.log_div ht.ne' hc.ne']; ring
  have h := integral_Ioi_of_hasDerivAt_of_tendsto' hd (i1.sub i2) ht
  rw [integral_sub i1 i2, div_self hc.ne', Real.log_one, zero_mul, neg_zero, sub_zero, sub_eq_zero] at h
  exact h

/-- Shifting the exponential integral. -/
theorem shift (hc : 0 < c) (g : ℝ → ℝ) : (IntegrableOn (fun x => g (1 + x / c) * Real.exp (-x)) (Ioi 0) ↔ IntegrableOn (fun t => g (t / c) * Real.exp (-t)) (Ioi c)) ∧
    ∫ x in Ioi (0:ℝ), g (1 + x / c) * Real.exp (-x) = Real.exp c * ∫ t in Ioi c, g (t / c) * Real.exp (-t) := by
  have e : (fun x => g (1 + x / c) * Real.exp (-x)) = fun x => Real.exp c * (fun t => g (t / c) * Real.exp (-t)) (x + c) := by
    funext x
    simp only
    rw [show (x + c) / c = 1 + x / c by field_simp; ring, show -x = c + -(x + c) by ring, Real.exp_add c]; ring_nf
  have hpre : (fun x => x + c) ⁻¹' Ioi c = Ioi 0 := by ext x; simp
  constructor
  · have h1 := (measurePreserving_add_right volume c).integrableOn_comp_preimage (measurableEmbedding_addRight c)
      (f := fun t => g (t / c) * Real.exp (-t)) (s := Ioi c)
    rw [hpre] at h1
    rw [← h1, e]
    exact ⟨fun h => (h.const_mul (Real.exp c)⁻¹).congr (Eventually.of_forall fun x => by
      simp only; rw [inv_mul_cancel_left₀ (Real.exp_ne_zero c)]; rfl), fun h => h.const_mul _⟩
  · rw [e, integral_const_mul]
    congr 1
    have := (measurePreserving_add_right volume c).setIntegral_preimage_emb (measurableEmbedding_addRight c)
      (fun t => g (t / c) * Real.exp (-t)) (Ioi c)
    rw [hpre] at this
    exact this

/-- `E log(1 + X/c)` for a standard exponential `X`. -/
theorem int01_log (hc : 0 < c) : Int01 (fun p => Real.log (1 + -Real.log p / c)) (Real.exp c * e1R c) := by
  obtain ⟨h1, h2⟩ := shift hc Real.log
  refine int01_neg_log (h := fun x => Real.log (1 + x / c)) (by fun_prop) (h1.2 ((log_div_int hc).mono_set (Ioi_subset_Ioi hc.le))) ?_
  rw [h2, log_int_val hc]

theorem log_sq_int (hc : 0 < c) : IntegrableOn (fun t => Real.log (t / c) ^ 2 * Real.exp (-t)) (Ioi 0) := by
  refine (((lg_int 2).sub ((lg_int 1).const_mul (2 * Real.log c))).add ((exp_int 0).const_mul (Real.log c ^ 2))).congr_fun (fun t ht => ?_) measurableSet_Ioi
  have ht : 0 < t := ht
  simp only [Pi.sub_apply, Pi.add_apply, pow_one]
  rw [Real.log_div ht.ne' hc.ne']; ring

theorem log_sq_full (hc : 0 < c) : ∫ t in Ioi (0:ℝ), Real.log (t / c) ^ 2 * Real.exp (-t) =
    Real.eulerMascheroniConstant ^ 2 + Real.pi ^ 2 / 6 + 2 * Real.eulerMascheroniConstant * Real.log c + Real.log c ^ 2 := by
  have e : ∀ t ∈ Ioi (0:ℝ), Real.log (t / c) ^ 2 * Real.exp (-t) =
      Real.log t ^ 2 * Real.exp (-t) - 2 * Real.log c * (Real.log t ^ 1 * Real.exp (-t)) + Real.log c ^ 2 * Real.exp (-t) := by
    intro t ht
    have ht : 0 < t := ht
    rw [Real.log_div ht.ne' hc.ne']; ring
  have h1 : IntegrableOn (fun t => Real.log t ^ 2 * Real.exp (-t) - 2 * Real.log c * (Real.log t ^ 1 * Real.exp (-t))) (Ioi 0) :=
    (lg_int 2).sub ((lg_int 1).const_mul (2 * Real.log c))
  rw [setIntegral_congr_fun measurableSet_Ioi e, integral_add h1 ((exp_int 0).const_mul _), integral_sub (lg_int 2) ((lg_int 1).const_mul _),
    integral_const_mul, integral_const_mul, lg_val, lg_val, LG_one_one, LG_two_one, integral_exp_neg_Ioi_zero]
  ring

theorem int01_pow_log_sq (n : ℕ) : Int01 (fun u => u ^ n * Real.log u ^ 2) (2 / ((n:ℝ) + 1) ^ 3) := by
  have h := int01_neg_log (h := fun x => Real.exp (-(n * x)) * x ^ 2) (v := 2 / ((n:ℝ) + 1) ^ 3) (by fun_prop) ?_ ?_
  · refine h.congr fun p h0 _ => ?_
    rw [mul_neg (n:ℝ), neg_neg, ← Real.log_pow, Real.exp_log (by positivity), neg_sq]
  · have := integrableOn_rpow_mul_exp_neg_mul_rpow (s := 2) (p := 1) (b := (n:ℝ) + 1) (by norm_num) (by norm_num) (by positivity)
    refine this.congr_fun (fun x _ => ?_) measurableSet_Ioi
    simp only [Real.rpow_one, Real.rpow_two]
    rw [mul_right_comm, ← Real.exp_add, mul_comm]; congr 2; ring
  · have := Real.integral_rpow_mul_exp_neg_mul_Ioi (a := 3) (r := (n:ℝ) + 1) (by norm_num) (by positivity)
    have h3 : Real.Gamma 3 = 2 := by simpa using Real.Gamma_nat_eq_factorial 2
    rw [h3, show (3:ℝ) = ((3:ℕ):ℝ) by norm_num, Real.rpow_natCast, one_div, inv_pow, inv_mul_eq_div] at this
    rw [← this]
    refine setIntegral_congr_fun measurableSet_Ioi fun x hx => ?_
    rw [show (((3:ℕ):ℝ) - 1) = ((2:ℕ):ℝ) by norm_num, Real.rpow_natCast, mul_right_comm, ← Real.exp_add, mul_comm]; congr 2; ring

theorem asc_ratio (n : ℕ) : ((Nat.ascFactorial 1 n : ℝ) ^ 3 / (Nat.ascFactorial 2 n : ℝ) ^ 3) = 1 / ((n:ℝ) + 1) ^ 3 := by
  have h1 : (Nat.ascFactorial 1 n : ℝ) = (n.factorial : ℝ) := by rw [Nat.one_ascFactorial]
  have h2 : (Nat.ascFactorial 2 n : ℝ) = ((n + 1).factorial : ℝ) := by
    have := Nat.factorial_mul_ascFactorial 1 n
    rw [Nat.factorial_one, one_mul, add_comm 1 n] at this
    rw [← this]
  have h3 : (n.factorial : ℝ) ≠ 0 := by positivity
  rw [h1, h2, Nat.factorial_succ]; push_cast
  field_simp

/-- The part of the second moment below `c`. -/
theorem int01_log_sq_exp (hc : 0 < c) : Int01 (fun u => Real.log u ^ 2 * Real.exp (-(c * u))) (2 * hyp3f3R (-c)) := by
  set G : ℕ → ℝ → ℝ := fun n u => (-c) ^ n / n.factorial * (u ^ n * Real.log u ^ 2) with hG
  have hi : ∀ n, Int01 (G n) ((-c) ^ n / n.factorial * (2 / ((n:ℝ) + 1) ^ 3)) := fun n => (int01_pow_log_sq n).mul _
  have hnorm : ∀ n, ∫ u in Ioo (0:ℝ) 1, ‖G n u‖ = c ^ n / n.factorial * (2 / ((n:ℝ) + 1) ^ 3) := by
    intro n
    rw [← ((int01_pow_log_sq n).mul (c ^ n / n.factorial)).2]
    refine setIntegral_congr_fun measurableSet_Ioo fun u hu => ?_
    have : 0 ≤ u ^ n * Real.log u ^ 2 := mul_nonneg (pow_nonneg hu.1.le _) (sq_nonneg _)
    simp only [hG, norm_mul, norm_div, norm_pow, norm_neg, Real.norm_natCast]
    rw [Real.norm_of_nonneg hc.le, ← norm_pow, ← norm_pow, ← norm_mul, Real.norm_of_nonneg this]
  have hs : Summable fun n => ∫ u in Ioo (0:ℝ) 1, ‖G n u‖ := by
    simp only [hnorm]
    refine Summable.of_nonneg_of_le (fun n => by positivity) (fun n => ?_) ((Real.summable_pow_div_factorial c).mul_right 2)
    have : (2:ℝ) / ((n:ℝ) + 1) ^ 3 ≤ 2 := by
      rw [div_le_iff₀ (by positivity)]
      have : (1:ℝ) ≤ ((n:ℝ) + 1) ^ 3 := one_le_pow₀ (by have := Nat.cast_nonneg (α := ℝ) n; linarith)
      linarith
    gcongr
  have hsum := hasSum_integral_of_summable_integral_norm (fun n => (hi n).1) hs
  have et : ∀ u ∈ Ioo (0:ℝ) 1, ∑' n, G n u = Real.log u ^ 2 * Real.exp (-(c * u)) := by
    intro u _
    have h1 := (NormedSpace.expSeries_div_hasSum_exp (-(c * u))).mul_right (Real.log u ^ 2)
    rw [← Real.exp_eq_exp_ℝ] at h1
    rw [mul_comm (Real.log u ^ 2), ← h1.tsum_eq]
    refine tsum_congr fun n => ?_
    simp only [hG]
    rw [← neg_mul, mul_pow]; ring
  refine ⟨?_, ?_⟩
  · refine Integrable.mono' ((int01_pow_log_sq 0).1) (Measurable.aestronglyMeasurable (by fun_prop)) ?_
    filter_upwards [ae_restrict_mem measurableSet_Ioo] with u hu
    have : 0 ≤ c * u := mul_nonneg hc.le hu.1.le
    rw [Real.norm_of_nonneg (by positivity), pow_zero, one_mul]
    exact mul_le_of_le_one_right (sq_nonneg _) (Real.exp_le_one_iff.2 (by linarith))
  · rw [← setIntegral_congr_fun measurableSet_Ioo et, ← hsum.tsum_eq, hyp3f3R, ← tsum_mul_left]
    refine tsum_congr fun n => ?_
    rw [(hi n).2, asc_ratio]; ring

theorem log_sq_low (hc : 0 < c) : ∫ t in Ioc (0:ℝ) c, Real.log (t / c) ^ 2 * Real.exp (-t) = 2 * c * hyp3f3R (-c) := by
  have h := (int01_log_sq_exp hc).2
  rw [← integral_Ioc_eq_integral_Ioo, ← intervalIntegral.integral_of_le zero_le_one] at h
  rw [← intervalIntegral.integral_of_le hc.le]
  have h2 := intervalIntegral.integral_comp_mul_left (fun t => Real.log (t / c) ^ 2 * Real.exp (-t)) (a := 0) (b := 1) hc.ne'
  simp only [mul_zero, mul_one, mul_div_cancel_left₀ _ hc.ne'] at h2
  rw [h, smul_eq_mul, inv_mul_eq_div, eq_div_iff hc.ne'] at h2
  rw [← h2]; ring

/-- `E log²(1 + X/c)` for a standard exponential `X`. -/
theorem int01_log_sq (hc : 0 < c) : Int01 (fun p => Real.log (1 + -Real.log p / c) ^ 2) (Real.exp c * (-2 * c * hyp3f3R (-c) +
    Real.eulerMascheroniConstant ^ 2 + Real.pi ^ 2 / 6 + 2 * Real.eulerMascheroniConstant * Real.log c + Real.log c ^ 2)) := by
  obtain ⟨h1, h2⟩ := shift hc (fun y => Real.log y ^ 2)
  have hi := log_sq_int hc
  refine int01_neg_log (h := fun x => Real.log (1 + x / c) ^ 2) (by fun_prop) (h1.2 (hi.mono_set (Ioi_subset_Ioi hc.le))) ?_
  rw [h2]
  congr 1
  have h3 := log_sq_full hc
  rw [← Ioc_union_Ioi_eq_Ioi hc.le, setIntegral_union Ioc_disjoint_Ioi_same measurableSet_Ioi (hi.mono_set Ioc_subset_Ioi_self)
    (hi.mono_set (Ioi_subset_Ioi hc.le)), log_sq_low hc] at h3
  generalize ∫ t in Ioi c, Real.log (t / c) ^ 2 * Real.exp (-t) = I at *
  linarith

end Mpsci.gompertz
