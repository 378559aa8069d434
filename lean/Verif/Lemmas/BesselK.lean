import Verif.Lemmas.BesselR
import Verif.Lemmas.DensityDist
import Mathlib.Analysis.MellinTransform
import Mathlib.MeasureTheory.Integral.IntegralEqImproper

/-! The integrals `∫ z^(s-1) (log z)^n e^(-b (z + 1/z)/2) dz` over `(0, ∞)`. -/

namespace Mpsci

open Classical Num MeasureTheory Set Filter Topology Asymptotics

namespace kI

noncomputable def w (b t : ℝ) : ℝ := Real.exp (-b * (t + 1 / t) / 2)

theorem w_pos (b t : ℝ) : 0 < w b t := Real.exp_pos _
theorem w_inv (b t : ℝ) : w b t⁻¹ = w b t := by rw [w, w, one_div, one_div, inv_inv, add_comm]

noncomputable def gF (b : ℝ) (n : ℕ) (t : ℝ) : ℂ := ((Real.log t ^ n * w b t : ℝ) : ℂ)

noncomputable def G (b : ℝ) (n : ℕ) (s : ℝ) : ℝ := ∫ t in Ioi (0:ℝ), t ^ (s - 1) * (Real.log t ^ n * w b t)

variable {b : ℝ}

theorem gF_succ (n : ℕ) : (fun t => Real.log t • gF b n t) = gF b (n + 1) := by
  funext t; simp [gF, pow_succ]; ring

theorem gF_top (hb : 0 < b) (n : ℕ) (a : ℝ) : gF b n =O[atTop] (fun t : ℝ => t ^ (-a)) := by
  have h1 : (fun t : ℝ => Real.log t ^ n) =O[atTop] (fun t : ℝ => t) :=
    (isLittleO_log_rpow_atTop (r := 1 / ((n:ℝ) + 1)) (by positivity)).isBigO.pow n |>.trans (by
      refine IsBigO.of_bound 1 ?_
      filter_upwards [eventually_ge_atTop 1] with t ht
      have h0 : (0:ℝ) ≤ t := by linarith
      rw [← Real.rpow_natCast, ← Real.rpow_mul h0, one_mul, Real.norm_of_nonneg (by positivity),
        Real.norm_of_nonneg h0]
      calc t ^ (1 / ((n:ℝ) + 1) * n) ≤ t ^ (1:ℝ) := by
            apply Real.rpow_le_rpow_of_exponent_le ht
            rw [one_div, inv_mul_le_iff₀ (by positivity)]; linarith
        _ = t := Real.rpow_one t)
  have h2 : (w b) =O[atTop] (fun t : ℝ => t ^ (-a - 1)) := by
    refine IsBigO.trans (IsBigO.of_bound 1 ?_) (isLittleO_exp_neg_mul_rpow_atTop (a := b / 2) (by positivity) (-a - 1)).isBigO
    filter_upwards [eventually_gt_atTop 0] with t ht
    rw [one_mul, w, Real.norm_of_nonneg (Real.exp_pos _).le, Real.norm_of_nonneg (Real.exp_pos _).le, Real.exp_le_exp]
    have : 0 ≤ b * (1 / t) := by positivity
    nlinarith
  have h3 := h1.mul h2
  have h4 : (fun t : ℝ => t * t ^ (-a - 1)) =ᶠ[atTop] (fun t : ℝ => t ^ (-a)) := by
    filter_upwards [eventually_gt_atTop 0] with t ht
    rw [show -a = 1 + (-a - 1) by ring, Real.rpow_add ht, Real.rpow_one]; ring_nf
  refine (IsBigO.trans ?_ (h3.trans_eventuallyEq h4))
  refine IsBigO.of_bound 1 (Eventually.of_forall fun t => ?_)
  rw [one_mul, gF, Complex.norm_real]

theorem gF_bot (hb : 0 < b) (n : ℕ) (c : ℝ) : gF b n =O[𝓝[>] 0] (fun t : ℝ => t ^ (-c)) := by
  have h := (gF_top hb n (-c)).comp_tendsto tendsto_inv_nhdsGT_zero
  refine IsBigO.trans (IsBigO.of_bound 1 (Eventually.of_forall fun t => ?_)) (h.trans (IsBigO.of_bound 1 ?_))
  · rw [one_mul, Function.comp, gF, gF, w_inv, Complex.norm_real, Complex.norm_real, Real.log_inv, neg_pow, norm_mul, norm_mul, norm_mul]
    simp
  · filter_upwards [self_mem_nhdsWithin] with t ht
    have h0 : (0:ℝ) < t := ht
    rw [one_mul, Function.comp, Real.inv_rpow h0.le, neg_neg, Real.rpow_neg h0.le]

theorem gF_loc (n : ℕ) : LocallyIntegrableOn (gF b n) (Ioi 0) := by
  refine ContinuousOn.locallyIntegrableOn ?_ measurableSet_Ioi
  unfold gF w
  refine Complex.continuous_ofReal.comp_continuousOn ?_
  refine ContinuousOn.mul (ContinuousOn.pow ?_ n) (Real.continuous_exp.comp_continuousOn ?_)
  · exact Real.continuousOn_log.mono fun x hx => (ne_of_gt hx : x ≠ 0)
  · refine ((continuousOn_const.mul (continuousOn_id.add (continuousOn_const.div continuousOn_id ?_))).div_const 2)
    exact fun x hx => (ne_of_gt hx : x ≠ 0)

theorem gF_mellin (n : ℕ) {s : ℝ} : mellin (gF b n) s = G b n s := by
  rw [mellin, G, ← integral_complex_ofReal]
  refine setIntegral_congr_fun measurableSet_Ioi fun t ht => ?_
  have : (0:ℝ) ≤ t := le_of_lt ht
  simp [gF, Complex.ofReal_cpow this]

theorem G_deriv (hb : 0 < b) (n : ℕ) (s : ℝ) : HasDerivAt (G b n) (G b (n + 1) s) s := by
  have h := (mellin_hasDerivAt_of_isBigO_rpow (a := s + 1) (b := s - 1) (s := (s:ℂ)) (gF_loc n)
    (gF_top hb n _) (by simp) (gF_bot hb n _) (by simp)).2
  rw [gF_succ, gF_mellin] at h
  have h2 := h.real_of_complex
  simpa [gF_mellin] using h2

theorem G_integrable (hb : 0 < b) (n : ℕ) (s : ℝ) : IntegrableOn (fun t => t ^ (s - 1) * (Real.log t ^ n * w b t)) (Ioi 0) := by
  have h := mellinConvergent_of_isBigO_rpow (a := s + 1) (b := s - 1) (s := (s:ℂ)) (gF_loc n)
    (gF_top hb n _) (by simp) (gF_bot hb n _) (by simp)
  have h2 := h.re
  refine IntegrableOn.congr_fun h2 (fun t ht => ?_) measurableSet_Ioi
  have : (0:ℝ) ≤ t := le_of_lt ht
  have e : ((t:ℂ) ^ ((s:ℂ) - 1) • gF b n t) = ((t ^ (s - 1) * (Real.log t ^ n * w b t) : ℝ) : ℂ) := by
    simp [gF, Complex.ofReal_cpow this]
  simp only [e, RCLike.re_to_complex, Complex.ofReal_re]

theorem G_zero (s : ℝ) : G b 0 s = 2 * besselKR s b := by
  rw [besselKR, G]
  simp only [pow_zero, one_mul, w]; ring

theorem int0 (hb : 0 < b) (s : ℝ) : IntegrableOn (fun t => t ^ (s - 1) * w b t) (Ioi 0) := by
  simpa using G_integrable hb 0 s

theorem integral0 (s : ℝ) : ∫ t in Ioi (0:ℝ), t ^ (s - 1) * w b t = 2 * besselKR s b := by
  rw [← G_zero, G]; simp

theorem K_deriv (hb : 0 < b) (s : ℝ) : HasDerivAt (fun s => besselKR s b) (G b 1 s / 2) s := by
  have h := (G_deriv hb 0 s).div_const 2
  have e : (fun s => G b 0 s / 2) = fun s => besselKR s b := by funext s; rw [G_zero]; ring
  rw [e] at h; exact h

theorem K_pos (hb : 0 < b) (s : ℝ) : 0 < besselKR s b := by
  have h : 0 < ∫ t in Ioi (0:ℝ), t ^ (s - 1) * w b t := by
    rw [setIntegral_pos_iff_support_of_nonneg_ae]
    · have : (Function.support fun t => t ^ (s - 1) * w b t) ∩ Ioi 0 = Ioi 0 := by
        refine inter_eq_right.2 fun t ht => ?_
        have ht' : (0:ℝ) < t := ht
        exact (mul_pos (Real.rpow_pos_of_pos ht' _) (w_pos _ _)).ne'
      rw [this]; simp
    · filter_upwards [ae_restrict_mem measurableSet_Ioi] with t ht
      have ht' : (0:ℝ) < t := ht
      exact (mul_pos (Real.rpow_pos_of_pos ht' _) (w_pos _ _)).le
    · exact int0 hb s
  rw [integral0] at h; linarith

theorem w_deriv {t : ℝ} (ht : 0 < t) : HasDerivAt (w b) (w b t * (-b * (1 - 1 / t ^ 2) / 2)) t := by
  have h1 : HasDerivAt (fun t : ℝ => 1 / t) (-(1 / t ^ 2)) t := by
    have := hasDerivAt_inv ht.ne'
    simp only [one_div]; exact this.congr_deriv (by ring)
  have := ((((hasDerivAt_id t).add h1).const_mul (-b)).div_const 2).exp
  exact this.congr_deriv (by simp only [w, id, Pi.add_apply]; ring)

theorem tendsto_top (hb : 0 < b) (s : ℝ) : Tendsto (fun t => t ^ s * w b t) atTop (𝓝 0) := by
  have h := ((isBigO_refl (fun t : ℝ => t ^ s) atTop).mul (gF_top hb 0 (s + 1)).norm_left)
  have h2 : (fun t : ℝ => t ^ s * t ^ (-(s + 1))) =ᶠ[atTop] fun t => t⁻¹ := by
    filter_upwards [eventually_gt_atTop 0] with t ht
    rw [← Real.rpow_add ht, show s + -(s + 1) = -1 by ring, Real.rpow_neg_one]
  have h3 := (h.trans_eventuallyEq h2).trans_tendsto tendsto_inv_atTop_zero
  refine h3.congr fun t => ?_
  simp [gF, abs_of_pos (w_pos b t)]

theorem tendsto_bot (hb : 0 < b) (s : ℝ) : Tendsto (fun t => t ^ s * w b t) (𝓝[>] 0) (𝓝 0) := by
  have h := (tendsto_top hb (-s)).comp tendsto_inv_nhdsGT_zero
  refine h.congr' ?_
  filter_upwards [self_mem_nhdsWithin] with t ht
  have h0 : (0:ℝ) < t := ht
  rw [Function.comp, w_inv, Real.inv_rpow h0.le, Real.rpow_neg h0.le, inv_inv]

/-- `K_{s+1} - K_{s-1} = (2 s / b) K_s` -/
theorem K_rec (hb : 0 < b) (s : ℝ) : b * besselKR (s + 1) b = b * besselKR (s - 1) b + 2 * s * besselKR s b := by
  have hd : ∀ t ∈ Ioi (0:ℝ), HasDerivAt (fun t => t ^ s * w b t)
      (s * (t ^ (s - 1) * w b t) - b / 2 * (t ^ (s + 1 - 1) * w b t) + b / 2 * (t ^ (s - 1 - 1) * w b t)) t := by
    intro t ht
    have h0 : (0:ℝ) < t := ht
    refine ((Real.hasDerivAt_rpow_const (p := s) (Or.inl h0.ne')).mul (w_deriv h0)).congr_deriv ?_
    rw [add_sub_cancel_right, Real.rpow_sub_one h0.ne' (s - 1), Real.rpow_sub_one h0.ne' s]
    field_simp; ring
  have hi : IntegrableOn (fun t => s * (t ^ (s - 1) * w b t) - b / 2 * (t ^ (s + 1 - 1) * w b t) + b / 2 * (t ^ (s - 1 - 1) * w b t)) (Ioi 0) :=
    (((int0 hb s).const_mul s).sub ((int0 hb (s + 1)).const_mul _)).add ((int0 hb (s - 1)).const_mul _)
  have h2 := MeasureTheory.integral_Ioi_of_hasDerivAt_of_tendsto (a := (0:ℝ)) (f := fun t => if t ≤ 0 then 0 else t ^ s * w b t) (m := 0)
    (f' := fun t => s * (t ^ (s - 1) * w b t) - b / 2 * (t ^ (s + 1 - 1) * w b t) + b / 2 * (t ^ (s - 1 - 1) * w b t)) ?_ ?_ hi ?_
  · have h3 := integral_add (((int0 hb s).const_mul s).sub ((int0 hb (s + 1)).const_mul (b / 2))) ((int0 hb (s - 1)).const_mul (b / 2))
    have h4 := integral_sub ((int0 hb s).const_mul s) ((int0 hb (s + 1)).const_mul (b / 2))
    simp only [Pi.sub_apply] at h3 h4
    rw [h3, h4, integral_const_mul, integral_const_mul, integral_const_mul, integral0, integral0, integral0] at h2
    simp at h2; linarith
  · rw [← continuousWithinAt_Ioi_iff_Ici, ContinuousWithinAt, if_pos le_rfl]
    refine (tendsto_bot hb s).congr' ?_
    filter_upwards [self_mem_nhdsWithin] with t ht
    rw [if_neg (not_le.2 ht)]
  · intro t ht
    refine (hd t ht).congr_of_eventuallyEq ?_
    filter_upwards [Ioi_mem_nhds (show (0:ℝ) < t from ht)] with u hu
    rw [if_neg (not_le.2 hu)]
  · refine (tendsto_top hb s).congr' ?_
    filter_upwards [eventually_gt_atTop 0] with t ht
    rw [if_neg (not_le.2 ht)]

theorem K_neg (s : ℝ) : besselKR (-s) b = besselKR s b := by
  have h := integral_comp_rpow_Ioi (fun t => t ^ (-s - 1) * w b t) (p := -1) (by norm_num)
  have e : ∫ t in Ioi (0:ℝ), t ^ (s - 1) * w b t = ∫ t in Ioi (0:ℝ), t ^ (-s - 1) * w b t := by
    rw [← h]
    refine setIntegral_congr_fun measurableSet_Ioi fun t ht => ?_
    have h0 : (0:ℝ) < t := ht
    simp only [smul_eq_mul, abs_neg, abs_one, one_mul, Real.rpow_neg_one, w_inv]
    rw [Real.inv_rpow h0.le, ← Real.rpow_neg h0.le, ← mul_assoc, ← Real.rpow_add h0]
    congr 2; ring
  rw [integral0, integral0] at e; linarith

theorem ig_eq (hb : 0 < b) {t : ℝ} (h0 : 0 < t) : igD.f b⁻¹ (b⁻¹ * t) = Real.exp b * b * √b / √(2 * Real.pi) * (t ^ (-1 / 2 - 1 : ℝ) * w b t) := by
  rw [igD.f_of_pos (by positivity), igD.a, phi, w]
  have hs : √(b⁻¹ * t) ^ 2 = b⁻¹ * t := Real.sq_sqrt (by positivity)
  have e1 : -((b⁻¹ * t / b⁻¹ - 1) / √(b⁻¹ * t)) ^ 2 / 2 = b + -b * (t + 1 / t) / 2 := by
    rw [div_pow, hs]; field_simp; ring
  have e2 : t ^ (-1 / 2 - 1 : ℝ) = 1 / (t * √t) := by
    rw [Real.rpow_sub_one h0.ne', show (-1 / 2 : ℝ) = -(1 / 2) by norm_num, Real.rpow_neg h0.le, ← Real.sqrt_eq_rpow]
    field_simp
  rw [e1, Real.exp_add, e2, Real.sqrt_mul (inv_nonneg.2 hb.le) t, Real.sqrt_inv]
  have : √b ≠ 0 := (Real.sqrt_pos.2 hb).ne'
  have : √t ≠ 0 := (Real.sqrt_pos.2 h0).ne'
  field_simp

/-- `K_{1/2}(b) = √(π/(2b)) e^(-b)`, from the normalisation of the inverse Gaussian density -/
theorem K_neg_half (hb : 0 < b) : besselKR (-1 / 2) b = √(Real.pi / (2 * b)) * Real.exp (-b) := by
  have hm : 0 < 1 / b := by positivity
  have h1 := (igD.isDist hm).integral_one
  rw [integral_Ioi_of_zero (g := igD.f (1 / b)) (fun x hx => igD.f_nonpos hx.le)] at h1
  have h2 := integral_comp_mul_left_Ioi (igD.f (1 / b)) 0 hm
  rw [mul_zero, h1, smul_eq_mul, mul_one, one_div, inv_inv] at h2
  have e : ∀ t ∈ Ioi (0:ℝ), igD.f b⁻¹ (b⁻¹ * t) = _ := fun t ht => ig_eq hb ht
  rw [setIntegral_congr_fun measurableSet_Ioi e, integral_const_mul, integral0] at h2
  have hs : √(2 * Real.pi) = 2 * b * √(Real.pi / (2 * b)) / √b := by
    rw [eq_div_iff (Real.sqrt_pos.2 hb).ne', ← Real.sqrt_mul (by have := Real.pi_pos; positivity),
      show 2 * Real.pi * b = (2 * b) ^ 2 * (Real.pi / (2 * b)) by field_simp, Real.sqrt_mul (by positivity), Real.sqrt_sq (by positivity)]
  have h3 : √(Real.pi / (2 * b)) ≠ 0 := (Real.sqrt_pos.2 (by have := Real.pi_pos; positivity)).ne'
  have h4 : √b ^ 2 = b := Real.sq_sqrt hb.le
  rw [hs] at h2
  generalize √(Real.pi / (2 * b)) = q at *
  generalize besselKR (-1 / 2) b = k at *
  have h5 := Real.exp_pos b
  have h6 := (Real.sqrt_pos.2 hb).ne'
  have h7 : b ≠ 0 := hb.ne'
  rw [Real.exp_neg]
  have h8 : Real.exp b * b * √b / (2 * b * q / √b) * (2 * k) = Real.exp b * b * k / q := by
    have : Real.exp b * b * √b / (2 * b * q / √b) * (2 * k) = Real.exp b * √b ^ 2 * k / q := by field_simp
    rw [this, h4]
  rw [h8] at h2
  field_simp at h2 ⊢
  linarith

theorem K_half (hb : 0 < b) : besselKR (1 / 2) b = √(Real.pi / (2 * b)) * Real.exp (-b) := by
  rw [← K_neg_half hb, ← K_neg]; norm_num

end kI

end Mpsci
