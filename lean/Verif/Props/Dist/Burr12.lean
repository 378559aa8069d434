import Verif.Lemmas.Dist.Burr12

/-! Properties of `burr12`. -/

namespace Mpsci.burr12

open Classical Num Spec common Filter Topology Set 

variable {c d s : ℝ}

/-- C01 -/
theorem complementary (hc : 0 < c) (hd : 0 < d) (hs : 0 < s) : Complementary (cdf · (fin c) (fin d) (fin s)) (sf · (fin c) (fin d) (fin s)) :=
  complementary_of (cdf_eval hc hd hs) (sf_eval hc hd hs)

/-- C02 -/
theorem isCdf (hc : 0 < c) (hd : 0 < d) (hs : 0 < s) : IsCdf (cdf · (fin c) (fin d) (fin s)) := (isDist hc hd hs).isCdf (cdf_eval hc hd hs)

/-- C03 -/
theorem isDensity (hc : 0 < c) (hd : 0 < d) (hs : 0 < s) : IsDensity ∅ (Ici 0) (pdf · (fin c) (fin d) (fin s)) (cdf · (fin c) (fin d) (fin s)) :=
  (isDist hc hd hs).isDensity (fun x hx => pdf_eval hc hd hs x) (cdf_eval hc hd hs) (f_zero hc hd hs)

/-- C05 -/
theorem inverts_cdf (hc : 0 < c) (hd : 0 < d) (hs : 0 < s) : Inverts (Ioi 0) (cdf · (fin c) (fin d) (fin s)) (invcdf · (fin c) (fin d) (fin s)) := by
  rw [← preimage_scale_Ioi_zero hs]
  exact inverts_scale hs (fun x _ => cdf_eval hc hd hs x) (fun _ => invcdf_eval hc hd hs) (fun _ => F_Q hc hd hs)
    (fun _ => Q_F hc hd hs)

/-- C05 -/
theorem inverts_sf (hc : 0 < c) (hd : 0 < d) (hs : 0 < s) : Inverts (Ioi 0) (sf · (fin c) (fin d) (fin s)) (invsf · (fin c) (fin d) (fin s)) := by
  rw [← preimage_scale_Ioi_zero hs]
  exact inverts_scale_compl hs (fun x _ => sf_eval hc hd hs x) (fun _ => invsf_eval hc hd hs) (fun _ => F_Q hc hd hs)
    (fun _ => Q_F hc hd hs)

/-- C06 -/
theorem rejects_p : RejectsBadP (invcdf · (fin c) (fin d) (fin s)) ∧ RejectsBadP (invsf · (fin c) (fin d) (fin s)) := by
  by_cases h : 0 < c ∧ 0 < d ∧ 0 < s
  · constructor <;> intro p hp <;> simp [invcdf, invsf, validateP_bad hp, validate_ok h.1 h.2.1 h.2.2]
  · constructor <;> intro p hp <;> simp [invcdf, invsf, validateP_bad hp, validate_bad h]

/-- C07 -/
theorem validates (x : ℝ) :
    ValidatesExactly (0 < c ∧ 0 < d ∧ 0 < s) (cdf (fin x) (fin c) (fin d) (fin s)) ∧
    ValidatesExactly (0 < c ∧ 0 < d ∧ 0 < s) (sf (fin x) (fin c) (fin d) (fin s)) ∧
    ValidatesExactly (0 < c ∧ 0 < d ∧ 0 < s) (pdf (fin x) (fin c) (fin d) (fin s)) ∧
    ValidatesExactly (0 < c ∧ 0 < d ∧ 0 < s) (logpdf (fin x) (fin c) (fin d) (fin s)) := by
  refine ⟨⟨fun h => ⟨_, cdf_eval h.1 h.2.1 h.2.2 x⟩, fun h => ?_⟩, ⟨fun h => ⟨_, sf_eval h.1 h.2.1 h.2.2 x⟩, fun h => ?_⟩,
    ⟨fun h => pdf_returns h.1 h.2.1 h.2.2 x, fun h => ?_⟩, ⟨fun h => logpdf_returns h.1 h.2.1 h.2.2 x, fun h => ?_⟩⟩ <;>
  simp [cdf, sf, pdf, logpdf, validate_bad h]

/-- C08 -/
theorem scale (hc : 0 < c) (hd : 0 < d) : ScaleInvariant (fun x s => cdf x (fin c) (fin d) s) ∧
    ScaleInvariant (fun x s => sf x (fin c) (fin d) s) := 
  ⟨scale_of_std fun x _ hs => cdf_eval hc hd hs x,
   scale_of_std (G := fun z => 1 - F c d z) fun x _ hs => sf_eval hc hd hs x⟩

/-- C08 -/
theorem scale_pdf (hc : 0 < c) (hd : 0 < d) : ScaleDensity (fun x s => pdf x (fin c) (fin d) s) :=
  scaleDensity_of_std fun x _ hs => pdf_eval hc hd hs x

/-- C04 -/
theorem isLogOf (hc : 0 < c) (hd : 0 < d) (hs : 0 < s) : IsLogOf ∅ (pdf · (fin c) (fin d) (fin s)) (logpdf · (fin c) (fin d) (fin s)) :=
  isLogOf_of (P := Ioi 0) (fun _ _ hx => div_pos (f_pos hc hd (div_pos hx hs)) hs)
    (fun x _ hx => by simp [f, (scale_le_zero hs).2 (not_lt.1 hx)])
    (fun x _ => pdf_eval hc hd hs x) (fun x _ hx => logpdf_pos hc hd hs hx)
    (fun x _ hx => logpdf_neg hc hd hs (not_lt.1 hx))

/-- C51 -/
theorem isLogOf_cdf (hc : 0 < c) (hd : 0 < d) (hs : 0 < s) : IsLogOf ∅ (cdf · (fin c) (fin d) (fin s)) (logcdf · (fin c) (fin d) (fin s)) := by
  refine isLogOf_of (P := Ioi 0) (fun _ _ hx => (Q_F hc hd hs (show _ ∈ Ioi (0:ℝ) from div_pos hx hs)).1)
    (fun x _ hx => by simp [F, (scale_le_zero hs).2 (not_lt.1 hx)])
    (fun x _ => cdf_eval hc hd hs x) (fun x _ hx => ?_)
    (fun x _ hx => by simp [logcdf, validate_ok hc hd hs, not_lt.1 (show ¬ 0 < x from hx)])
  have hx : 0 < x := hx
  have h := (Q_F hc hd hs (show _ ∈ Ioi (0:ℝ) from div_pos hx hs))
  have h2 : -1 < -(1 - F c d (x / s)) := by linarith [h.1]
  simp only [logcdf, validate_ok hc hd hs, ok_bind, zero_def, fin_le, hx.not_ge, if_false,
    sf_eval hc hd hs, neg_fin, mp.log1p_pos h2]
  congr 3; ring

/-- C51 -/
theorem isLogOf_sf (hc : 0 < c) (hd : 0 < d) (hs : 0 < s) : IsLogOf ∅ (sf · (fin c) (fin d) (fin s)) (logsf · (fin c) (fin d) (fin s)) := by
  refine isLogOf_of (P := univ) (fun x _ _ => ?_) (fun x _ hx => absurd (mem_univ x) hx)
    (fun x _ => sf_eval hc hd hs x) (fun x _ _ => ?_) (fun x _ hx => absurd (mem_univ x) hx)
  · rcases le_or_gt x 0 with h | h
    · simp [F, (scale_le_zero hs).2 h]
    · have := (Q_F hc hd hs (show _ ∈ Ioi (0:ℝ) from div_pos h hs)).2.1; linarith
  · rcases le_or_gt x 0 with h | h
    · simp [logsf, validate_ok hc hd hs, F, h, (scale_le_zero hs).2 h]
    · have hz := div_pos h hs
      have h1 : 0 < (x / s) ^ c := by positivity
      have h2 := one_add_pos (c := c) hz
      simp only [logsf, validate_ok hc hd hs, ok_bind, zero_def, fin_le, h.not_ge, if_false,
        fin_div _ hs.ne', mp.power_pos hz, mp.log1p_pos (by linarith : (-1:ℝ) < (x / s) ^ c), neg_fin,
        fin_mul, pure_eq_ok, F, hz.not_ge, sub_sub_cancel, Real.log_rpow h2]

/-- C09 -/
theorem isMode (hc : 1 < c) (hd : 0 < d) (hs : 0 < s) : IsMode ∅ (pdf · (fin c) (fin d) (fin s)) (mode (fin c) (fin d) (fin s)) := by
  have h0 : 0 < c := by linarith
  refine isMode_of (mode_eval hc hd hs) (fun x _ => pdf_eval h0 hd hs x) (by simp) (fun y _ => ?_)
  rw [mul_div_cancel_left₀ _ hs.ne']
  exact div_le_div_of_nonneg_right (f_le hc hd _) hs.le

/-- C09 fails for `c ≤ 1`: `mode` is 0, where `pdf` returns 0, the smallest value it takes. -/
theorem mode_fails (h0 : 0 < c) (hc : c ≤ 1) (hd : 0 < d) (hs : 0 < s) :
    ¬ IsMode ∅ (pdf · (fin c) (fin d) (fin s)) (mode (fin c) (fin d) (fin s)) := by
  rintro ⟨m, v, hm, hv, h⟩
  have e : mode (fin c) (fin d) (fin s) = .ok (fin 0) := by simp [mode, validate_ok h0 hd hs, hc]
  rw [e] at hm; cases hm
  simp only [pdf_eval h0 hd hs] at hv; cases hv
  obtain ⟨w, hw, h2⟩ := h s (by simp)
  simp only [pdf_eval h0 hd hs] at hw; cases hw
  rw [div_self hs.ne'] at h2
  have h3 := div_pos (f_pos h0 hd one_pos) hs
  simp [f] at h2
  have : f c d 1 / s ≤ 0 := by simpa [f] using h2
  linarith

/-- C10 -/
theorem isMedian (hc : 0 < c) (hd : 0 < d) (hs : 0 < s) : IsMedian (cdf · (fin c) (fin d) (fin s)) (median (fin c) (fin d) (fin s)) := by
  have e : (2:ℝ) ^ (1 / d) = (1 - 1 / 2) ^ (-1 / d) := by
    rw [show (1 - 1 / 2 : ℝ) = 2⁻¹ by norm_num, Real.inv_rpow (by norm_num), neg_div, Real.rpow_neg (by norm_num), inv_inv]
  have hq := q_pos hd (p := 1 - 1 / 2) (by norm_num) (by norm_num)
  refine isMedian_of (m := s * Q c d (1 / 2)) ?_ ?_
  · simp only [median, validate_ok hc hd hs, ok_bind, one_def, ofNat_def, fin_div _ hd.ne', fin_div _ hc.ne',
      mp.power_pos two_pos, fin_sub, e, mp.power_pos hq, fin_mul, pure_eq_ok, Q]
  · rw [cdf_eval hc hd hs, mul_div_cancel_left₀ _ hs.ne', (F_Q hc hd hs (by norm_num) (by norm_num)).2]

/-- C41 The lower ends are right.  At the upper end `0**(-1/d)` is computed: when `2/d` is an integer
this raises ZeroDivisionError, otherwise `+inf` is returned as it should be. -/
theorem endPoints (hc : 0 < c) (hd : 0 < d) (hs : 0 < s) :
    invcdf 0 (fin c) (fin d) (fin s) = .ok 0 ∧ invsf 1 (fin c) (fin d) (fin s) = .ok 0 ∧
    ((¬ ∃ k : ℤ, 2 / d = k) → invcdf 1 (fin c) (fin d) (fin s) = .ok pinf ∧
      invsf 0 (fin c) (fin d) (fin s) = .ok pinf) ∧
    ((∃ k : ℤ, 2 / d = k) → invcdf 1 (fin c) (fin d) (fin s) = .error .zeroDivision ∧
      invsf 0 (fin c) (fin d) (fin s) = .error .zeroDivision) := by
  have h := mp.power_zero_pos (one_div_pos.2 hc)
  have hn : -1 / d < 0 := by rw [neg_div]; exact neg_neg_of_pos (one_div_pos.2 hd)
  refine ⟨?_, ?_, fun hk => ?_, ?_⟩
  · simp only [invcdf, validateP_ok, validate_ok hc hd hs, zero_def, one_def, le_refl, zero_le_one, ok_bind,
      fin_sub, sub_zero, neg_fin, fin_div _ hd.ne', mp.powm1_pos one_pos, Real.one_rpow, sub_self, fin_div _ hc.ne', h,
      fin_mul, mul_zero, pure_eq_ok]
  · simp only [invsf, validateP_ok, validate_ok hc hd hs, zero_def, one_def, le_refl, zero_le_one, ok_bind,
      neg_fin, fin_div _ hd.ne', mp.powm1_pos one_pos, Real.one_rpow, sub_self, fin_div _ hc.ne', h,
      fin_mul, mul_zero, pure_eq_ok]
  · have h3 : mp.power (fin 0) (fin (-1 / d)) = .ok pinf := by
      rw [mp.power_zero_neg hn, if_neg]
      intro h4; refine hk ⟨-⌊2 * (-1 / d)⌋, ?_⟩
      push_cast; rw [h4]; ring
    have h4 : mp.power pinf (fin c⁻¹) = .ok pinf := by simp [mp.power, hc]
    simp only [invcdf, invsf, validateP_ok, validate_ok hc hd hs, zero_def, one_def, le_refl, zero_le_one, ok_bind,
      fin_sub, sub_self, neg_fin, fin_div _ hd.ne', mp.powm1, h3, pure_eq_ok, fin_div _ hc.ne']
    simp [h4, scaleInf_pos hs]
  · rintro ⟨k, hk⟩
    have h3 : mp.power (fin 0) (fin (-1 / d)) = .error .zeroDivision :=
      mp.power_zero_neg_half (k := -k) hn (by push_cast; rw [← hk]; ring)
    simp [invcdf, invsf, validateP_ok, validate_ok hc hd hs, fin_div _ hd.ne', mp.powm1, h3]

/-- C48 -/
theorem atInfinities (hc : 0 < c) (hd : 0 < d) (hs : 0 < s) : AtInfinities (cdf · (fin c) (fin d) (fin s)) (sf · (fin c) (fin d) (fin s)) := by
  refine ⟨?_, ?_, ?_, ?_⟩ <;>
  simp [cdf, sf, validate_ok hc hd hs, pinf_div_pos hs, mp.power, hc, hd.not_gt, hd.ne']

theorem support_eq (hc : 0 < c) (hd : 0 < d) (hs : 0 < s) : support (fin c) (fin d) (fin s) = .ok (0, pinf) := by
  simp [support, validate_ok hc hd hs]

/-- Non-vacuity: `c = 2`, `d = 1`, `scale = 3`: `cdf(3) = 1/2` and the mode is `3/sqrt(3)`. -/
example : (1:ℝ) < 2 ∧ (0:ℝ) < 3 ∧ cdf (fin 3) (fin 2) (fin 1) (fin 3) = .ok (fin (1 / 2)) := by
  refine ⟨by norm_num, by norm_num, ?_⟩
  rw [cdf_eval (by norm_num) (by norm_num) (by norm_num), div_self (by norm_num), F, if_neg (by norm_num),
    Real.rpow_neg_one]
  norm_num

end Mpsci.burr12
