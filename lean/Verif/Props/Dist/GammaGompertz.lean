import Verif.Lemmas.Dist.GammaGompertz
import Verif.Lemmas.Dist.GammaGompertzMean

/-! Properties of `gamma_gompertz`. -/

namespace Mpsci.gamma_gompertz

open Classical Num Spec common Filter Topology Set 

variable {c b s : ℝ}

/-- C01 -/
theorem complementary (hc : 0 < c) (hb : 0 < b) (hs : 0 < s) : Complementary (cdf · (fin c) (fin b) (fin s)) (sf · (fin c) (fin b) (fin s)) :=
  complementary_of (cdf_eval hc hb hs) (sf_eval hc hb hs)

/-- C02 -/
theorem isCdf (hc : 0 < c) (hb : 0 < b) (hs : 0 < s) : IsCdf (cdf · (fin c) (fin b) (fin s)) := (isDist hc hb hs).isCdf (cdf_eval hc hb hs)

/-- C03 -/
theorem isDensity (hc : 0 < c) (hb : 0 < b) (hs : 0 < s) : IsDensity ∅ (Ici 0) (pdf · (fin c) (fin b) (fin s)) (cdf · (fin c) (fin b) (fin s)) :=
  (isDist hc hb hs).isDensity (fun x hx => pdf_eval hc hb hs x) (cdf_eval hc hb hs) (f_zero hc hb hs)

/-- C05 -/
theorem inverts_cdf (hc : 0 < c) (hb : 0 < b) (hs : 0 < s) : Inverts (Ioi 0) (cdf · (fin c) (fin b) (fin s)) (invcdf · (fin c) (fin b) (fin s)) := by
  rw [← preimage_scale_Ioi_zero hs]
  exact inverts_scale hs (fun x _ => cdf_eval hc hb hs x) (fun _ => invcdf_eval hc hb hs) (fun _ => F_Q hc hb hs)
    (fun _ => Q_F hc hb hs)

/-- C05 -/
theorem inverts_sf (hc : 0 < c) (hb : 0 < b) (hs : 0 < s) : Inverts (Ioi 0) (sf · (fin c) (fin b) (fin s)) (invsf · (fin c) (fin b) (fin s)) := by
  rw [← preimage_scale_Ioi_zero hs]
  exact inverts_scale_compl hs (fun x _ => sf_eval hc hb hs x) (fun _ => invsf_eval hc hb hs) (fun _ => F_Q hc hb hs)
    (fun _ => Q_F hc hb hs)

/-- C06 -/
theorem rejects_p : RejectsBadP (invcdf · (fin c) (fin b) (fin s)) ∧ RejectsBadP (invsf · (fin c) (fin b) (fin s)) := by
  by_cases h : 0 < c ∧ 0 < b ∧ 0 < s
  · constructor <;> intro p hp <;> simp [invcdf, invsf, validateP_bad hp, validate_ok h.1 h.2.1 h.2.2]
  · constructor <;> intro p hp <;> simp [invcdf, invsf, validateP_bad hp, validate_bad h]

/-- C07 -/
theorem validates (x : ℝ) :
    ValidatesExactly (0 < c ∧ 0 < b ∧ 0 < s) (cdf (fin x) (fin c) (fin b) (fin s)) ∧
    ValidatesExactly (0 < c ∧ 0 < b ∧ 0 < s) (sf (fin x) (fin c) (fin b) (fin s)) ∧
    ValidatesExactly (0 < c ∧ 0 < b ∧ 0 < s) (pdf (fin x) (fin c) (fin b) (fin s)) ∧
    ValidatesExactly (0 < c ∧ 0 < b ∧ 0 < s) (logpdf (fin x) (fin c) (fin b) (fin s)) := by
  refine ⟨⟨fun h => ⟨_, cdf_eval h.1 h.2.1 h.2.2 x⟩, fun h => ?_⟩, ⟨fun h => ⟨_, sf_eval h.1 h.2.1 h.2.2 x⟩, fun h => ?_⟩,
    ⟨fun h => pdf_returns h.1 h.2.1 h.2.2 x, fun h => ?_⟩, ⟨fun h => logpdf_returns h.1 h.2.1 h.2.2 x, fun h => ?_⟩⟩ <;>
  simp [cdf, sf, pdf, logpdf, validate_bad h]

/-- C08 -/
theorem scale (hc : 0 < c) (hb : 0 < b) : ScaleInvariant (fun x s => cdf x (fin c) (fin b) s) ∧
    ScaleInvariant (fun x s => sf x (fin c) (fin b) s) := 
  ⟨scale_of_std fun x _ hs => cdf_eval hc hb hs x,
   scale_of_std (G := fun z => 1 - F c b z) fun x _ hs => sf_eval hc hb hs x⟩

/-- C08 -/
theorem scale_pdf (hc : 0 < c) (hb : 0 < b) : ScaleDensity (fun x s => pdf x (fin c) (fin b) s) :=
  scaleDensity_of_std fun x _ hs => pdf_eval hc hb hs x

/-- C04 -/
theorem isLogOf (hc : 0 < c) (hb : 0 < b) (hs : 0 < s) : IsLogOf ∅ (pdf · (fin c) (fin b) (fin s)) (logpdf · (fin c) (fin b) (fin s)) :=
  isLogOf_of (P := Ici 0) (fun _ _ hx => div_pos (f_pos hc hb (div_nonneg hx hs.le)) hs)
    (fun x _ hx => f_zero hc hb hs x hx)
    (fun x _ => pdf_eval hc hb hs x) (fun x _ hx => logpdf_pos hc hb hs hx)
    (fun x _ hx => logpdf_neg hc hb hs (not_le.1 hx))

/-- C09 -/
theorem isMode (hc : 0 < c) (hb : 0 < b) (hs : 0 < s) : IsMode ∅ (pdf · (fin c) (fin b) (fin s)) (mode (fin c) (fin b) (fin s)) := by
  refine isMode_of (mode_eval hc hb hs) (fun x _ => pdf_eval hc hb hs x) (by simp) (fun y _ => ?_)
  rw [mul_div_cancel_left₀ _ hs.ne']
  exact div_le_div_of_nonneg_right (f_le hc hb _) hs.le

/-- C37 -/
theorem isMean (hc : 0 < c) (hb : 0 < b) (hs : 0 < s) :
    IsMean ∅ (pdf · (fin c) (fin b) (fin s)) (mean (fin c) (fin b) (fin s)) := by
  by_cases hb1 : b = 1
  · subst hb1
    refine ((hasM_one hc).scale hs).isMean finite_empty (fun x _ => pdf_eval hc hb hs x) ?_
    simp [mean, validate_ok hc hb hs, fin_div _ hc.ne', div_eq_mul_inv]
  by_cases hc1 : c = 1
  · subst hc1
    refine ((hasM_c_one hb hb1).scale hs).isMean finite_empty (fun x _ => pdf_eval hc hb hs x) ?_
    have : b - 1 ≠ 0 := sub_ne_zero.2 hb1
    simp [mean, validate_ok hc hb hs, hb1, fin_div _ this, mp.log_pos hb]
    ring
  · refine ((hasM hc hb).scale hs).isMean finite_empty (fun x _ => pdf_eval hc hb hs x) ?_
    have hz : (b - 1) / b < 1 := by rw [div_lt_one hb]; linarith
    simp only [mean, validate_ok hc hb hs, ok_bind, one_def, fin_eq, hb1, hc1, if_false, fin_div _ hc.ne', fin_add, fin_sub, fin_div _ hb.ne',
      mp.hyp2f1_fin hc (lt_add_one c) hz, fin_mul, pure_eq_ok]
    congr 2; ring

/-- C41 `invcdf` is right at both ends and `invsf(1)` is 0.  `invsf(0)` computes `0**(-1/c)`: it is
`+inf`, as it should be, unless `2/c` is an integer, when ZeroDivisionError is raised. -/
theorem endPoints (hc : 0 < c) (hb : 0 < b) (hs : 0 < s) :
    EndPoints (invcdf · (fin c) (fin b) (fin s)) 0 pinf ∧ invsf 1 (fin c) (fin b) (fin s) = .ok 0 ∧
    ((¬ ∃ k : ℤ, 2 / c = k) → invsf 0 (fin c) (fin b) (fin s) = .ok pinf) ∧
    ((∃ k : ℤ, 2 / c = k) → invsf 0 (fin c) (fin b) (fin s) = .error .zeroDivision) := by
  have hn : -1 / c < 0 := by rw [neg_div]; exact neg_neg_of_pos (one_div_pos.2 hc)
  refine ⟨⟨?_, ?_⟩, ?_, fun hk => ?_, ?_⟩
  · simp only [invcdf, validateP_ok, validate_ok hc hb hs, zero_def, one_def, le_refl, zero_le_one, ok_bind,
      neg_fin, neg_zero, fin_div _ hc.ne', fun_.pow1pm1_eval _ (show (-1:ℝ) < 0 by norm_num), add_zero,
      Real.one_rpow, sub_self, fin_mul, mul_zero, mp.log1p_pos (show (-1:ℝ) < 0 by norm_num), Real.log_one, pure_eq_ok]
  · have h1 : fun_.pow1pm1 (fin (-1)) (fin (-1 / c)) = .ok pinf := by
      simp [fun_.pow1pm1, fun_.xlog1py, hc.ne', scaleInf_neg hn]
    simp only [invcdf, validateP_ok, validate_ok hc hb hs, one_def, le_refl, zero_le_one, ok_bind,
      neg_fin, fin_div _ hc.ne', h1]
    simp [scaleInf_pos hb, scaleInf_pos hs]
  · simp only [invsf, validateP_ok, validate_ok hc hb hs, zero_def, one_def, le_refl, zero_le_one, ok_bind,
      neg_fin, fin_div _ hc.ne', mp.powm1_pos one_pos,
      Real.one_rpow, sub_self, fin_mul, mul_zero, mp.log1p_pos (show (-1:ℝ) < 0 by norm_num), add_zero, Real.log_one,
      pure_eq_ok]
  · have h3 : mp.power (fin 0) (fin (-1 / c)) = .ok pinf := by
      rw [mp.power_zero_neg hn, if_neg]
      intro h4; refine hk ⟨-⌊2 * (-1 / c)⌋, ?_⟩
      push_cast; rw [h4]; ring
    simp only [invsf, validateP_ok, validate_ok hc hb hs, zero_def, one_def, le_refl, zero_le_one, ok_bind,
      neg_fin, fin_div _ hc.ne', mp.powm1, h3, pure_eq_ok]
    simp [scaleInf_pos hb, scaleInf_pos hs]
  · rintro ⟨k, hk⟩
    have h3 : mp.power (fin 0) (fin (-1 / c)) = .error .zeroDivision :=
      mp.power_zero_neg_half (k := -k) hn (by push_cast; rw [← hk]; ring)
    simp [invsf, validateP_ok, validate_ok hc hb hs, fin_div _ hc.ne', mp.powm1, h3]

/-- C48 -/
theorem atInfinities (hc : 0 < c) (hb : 0 < b) (hs : 0 < s) : AtInfinities (cdf · (fin c) (fin b) (fin s)) (sf · (fin c) (fin b) (fin s)) := by
  have hc' : -c < 0 := by linarith
  by_cases h : b = 1
  · subst h
    refine ⟨?_, ?_, ?_, ?_⟩ <;>
    simp [cdf, sf, validate_ok hc hb hs, pinf_div_pos hs, scaleInf_neg hc']
  · refine ⟨?_, ?_, ?_, ?_⟩ <;>
    simp [cdf, sf, validate_ok hc hb hs, pinf_div_pos hs, h, mp.powm1, mp.power_zero_pos hc]

theorem support_eq (hc : 0 < c) (hb : 0 < b) (hs : 0 < s) : support (fin c) (fin b) (fin s) = .ok (0, pinf) := by
  simp [support, validate_ok hc hb hs]

/-- Non-vacuity: `c = 1`, `beta = 3`, `scale = 2`: at `x = 2 log 4` the survival function is `1/2`. -/
example : (0:ℝ) < 1 ∧ (0:ℝ) < 3 ∧ sf (fin (2 * Real.log 4)) (fin 1) (fin 3) (fin 2) = .ok (fin (1 / 2)) := by
  refine ⟨by norm_num, by norm_num, ?_⟩
  have h : (0:ℝ) < Real.log 4 := Real.log_pos (by norm_num)
  rw [sf_eval (by norm_num) (by norm_num) (by norm_num), mul_div_cancel_left₀ _ two_ne_zero, F,
    if_neg h.le.not_gt, Real.exp_log (by norm_num), Real.rpow_one]
  norm_num

end Mpsci.gamma_gompertz
