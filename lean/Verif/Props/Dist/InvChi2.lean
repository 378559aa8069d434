import Verif.Lemmas.Dist.InvChi2

/-! Properties of `invchi2`. -/

namespace Mpsci.invchi2

open Classical Num Spec common Filter Topology Set invgammaD

variable {nu : ℝ}

/-- C01 -/
theorem complementary (hn : 0 < nu) : Complementary (cdf · (fin nu)) (sf · (fin nu)) := complementary_of (cdf_eval hn) (sf_eval hn)

/-- C02 -/
theorem isCdf (hn : 0 < nu) : IsCdf (cdf · (fin nu)) := (isDist hn).isCdf (cdf_eval hn)

/-- C03 -/
theorem isDensity (hn : 0 < nu) : IsDensity ∅ (Ioi 0) (pdf · (fin nu)) (cdf · (fin nu)) :=
  (isDist hn).isDensity (fun x _ => pdf_eval hn x) (cdf_eval hn) (g_zero hn)

/-- C04, C42 -/
theorem isLogOf (hn : 0 < nu) : IsLogOf ∅ (pdf · (fin nu)) (logpdf · (fin nu)) :=
  isLogOf_of (P := Ioi 0) (g := fun x => g nu x) (fun _ _ hx => g_pos hn hx) (fun x _ hx => g_zero hn x hx)
    (fun x _ => pdf_eval hn x) (fun x _ hx => logpdf_pos hn hx) (fun x _ hx => logpdf_low hn (not_lt.1 hx))

/-- C07 -/
theorem validates (x : ℝ) :
    ValidatesExactly (0 < nu) (cdf (fin x) (fin nu)) ∧ ValidatesExactly (0 < nu) (sf (fin x) (fin nu)) ∧
    ValidatesExactly (0 < nu) (pdf (fin x) (fin nu)) ∧ ValidatesExactly (0 < nu) (logpdf (fin x) (fin nu)) ∧
    ValidatesExactly (0 < nu) (mode (fin nu)) := by
  refine ⟨⟨fun h => ⟨_, cdf_eval h x⟩, fun h => ?_⟩, ⟨fun h => ⟨_, sf_eval h x⟩, fun h => ?_⟩,
    ⟨fun h => ⟨_, pdf_eval h x⟩, fun h => ?_⟩, ⟨fun h => ?_, fun h => ?_⟩, ⟨fun h => ⟨_, mode_eval h⟩, fun h => ?_⟩⟩
  case refine_4 =>
    rcases le_or_gt x 0 with hx | hx
    · exact ⟨_, logpdf_low h hx⟩
    · exact ⟨_, logpdf_pos h hx⟩
  all_goals simp [cdf, sf, pdf, logpdf, mode, validate_bad h]

/-- C07 -/
theorem validates_rest (h : ¬ 0 < nu) : mean (fin nu) = .error .valueError ∧ var (fin nu) = .error .valueError ∧
    support (fin nu) = .error .valueError := by
  simp [mean, var, support, validate_bad h]

/-- C09 -/
theorem isMode (hn : 0 < nu) : IsMode ∅ (pdf · (fin nu)) (mode (fin nu)) := by
  refine isMode_of (mode_eval hn) (fun x _ => pdf_eval hn x) (by simp) (fun y _ => ?_)
  rw [g, g, add_sub_cancel_left, mul_div_cancel_left₀ _ one_half_pos.ne']
  exact div_le_div_of_nonneg_right (invgammaD.f_le (half hn) _) one_half_pos.le

/-- C12: `invchi2` is `invgamma` with shape `nu/2` and scale 1/2. -/
theorem eq_invgamma (hn : 0 < nu) (x : ℝ) :
    pdf (fin x) (fin nu) = invgamma.pdf (fin x) (fin (nu / 2)) 0 (fin (1 / 2)) ∧
    logpdf (fin x) (fin nu) = invgamma.logpdf (fin x) (fin (nu / 2)) 0 (fin (1 / 2)) ∧
    cdf (fin x) (fin nu) = invgamma.cdf (fin x) (fin (nu / 2)) 0 (fin (1 / 2)) ∧
    sf (fin x) (fin nu) = invgamma.sf (fin x) (fin (nu / 2)) 0 (fin (1 / 2)) ∧
    mode (fin nu) = invgamma.mode (fin (nu / 2)) 0 (fin (1 / 2)) ∧
    support (fin nu) = invgamma.support (fin (nu / 2)) 0 (fin (1 / 2)) := by
  have hh := half hn
  have ho : (0:ℝ) < 1 / 2 := one_half_pos
  simp only [zero_def]
  refine ⟨by rw [pdf_eval hn, invgamma.pdf_eval hh ho, g], ?_, by rw [cdf_eval hn, invgamma.cdf_eval hh ho],
    by rw [sf_eval hn, invgamma.sf_eval hh ho], by rw [mode_eval hn, invgamma.mode_eval hh ho],
    by simp only [support, validate_ok hn, invgamma.support, invgamma.validate_ok hh ho, ok_bind, zero_def]⟩
  rcases le_or_gt x 0 with h | h
  · rw [logpdf_low hn h, invgamma.logpdf_low hh ho h]
  · rw [logpdf_pos hn h, invgamma.logpdf_pos hh ho h, g]

/-- C12: the moments, where they exist and where they do not. -/
theorem moments_eq_invgamma (hn : 0 < nu) :
    mean (fin nu) = invgamma.mean (fin (nu / 2)) 0 (fin (1 / 2)) ∧
    var (fin nu) = invgamma.var (fin (nu / 2)) 0 (fin (1 / 2)) := by
  have hh := half hn
  have ho : (0:ℝ) < 1 / 2 := one_half_pos
  simp only [zero_def]
  constructor
  · by_cases h : 2 < nu
    · rw [mean_eval h, invgamma.mean_eval (by linarith) ho]
    · have h' : ¬ 1 < nu / 2 := by linarith
      simp only [mean, validate_ok hn, invgamma.mean, invgamma.validate_ok hh ho, ok_bind, one_def, ofNat_def, fin_lt, h, h', if_false]
  · by_cases h : 4 < nu
    · rw [var_eval h, invgamma.var_eval (by linarith) ho]
    · have h' : ¬ 2 < nu / 2 := by linarith
      simp only [var, validate_ok hn, invgamma.var, invgamma.validate_ok hh ho, ok_bind, ofNat_def, fin_lt, h, h', if_false]

/-- C37 -/
theorem isMean (hn : 2 < nu) : IsMean ∅ (pdf · (fin nu)) (mean (fin nu)) := by
  have h0 : 0 < nu := by linarith
  have h := (Int01.const 0).add ((Y1 (show 1 < nu / 2 by linarith)).mul (1 / 2))
  have := isMoment_of_int01 (n := 1) (pdf := (pdf · (fin nu))) finite_empty (fun x _ => pdf_eval h0 x) (isDist h0) (F_Q h0)
    (by simpa only [pow_one] using h) (mean_eval hn)
  obtain ⟨hE, g, m, h1, h2, h3, h4⟩ := this
  simp only [pow_one] at h3 h4
  exact ⟨hE, g, m, h1, h2, h3, h4⟩

/-- C37: `mean` returns nan only where there is no mean. -/
theorem mean_nan (h0 : 0 < nu) (hn : nu ≤ 2) : mean (fin nu) = .ok nan ∧ ¬ ∃ r, IsMean ∅ (pdf · (fin nu)) r :=
  ⟨by simp only [mean, validate_ok h0, ok_bind, ofNat_def, fin_lt, hn.not_gt, if_false, pure_eq_ok],
    not_isMean_aff one_half_pos.ne' (fun x _ => pdf_eval h0 x) (isDist h0) (F_Q h0) (not_int (half h0) 1 (by push_cast; linarith))⟩

/-- C37 -/
theorem isVar (hn : 4 < nu) : IsVar ∅ (pdf · (fin nu)) (var (fin nu)) :=
  (invgamma.hasMV (loc := 0) (show 2 < nu / 2 by linarith) one_half_pos).isVar finite_empty
    (fun x _ => pdf_eval (by linarith) x) (var_eval hn)

/-- C37: `var` returns nan only where there is no variance. -/
theorem var_nan (h0 : 0 < nu) (hn : nu ≤ 4) : var (fin nu) = .ok nan ∧ ¬ ∃ r, IsVar ∅ (pdf · (fin nu)) r :=
  ⟨by simp only [var, validate_ok h0, ok_bind, ofNat_def, fin_lt, hn.not_gt, if_false, pure_eq_ok],
    not_isVar_aff one_half_pos.ne' (fun x _ => pdf_eval h0 x) (isDist h0) (F_Q h0) (not_int (half h0) 2 (by push_cast; linarith))⟩

/-- C41 -/
theorem support_spec (hn : 0 < nu) : support (fin nu) = .ok (fin 0, pinf) := by simp [support, validate_ok hn]

/-- C48 -/
theorem atInfinities (hn : 0 < nu) : AtInfinities (cdf · (fin nu)) (sf · (fin nu)) := by
  have h := gammaD.gammaTail_eq (half hn) le_rfl
  simp only [gammaD.P_zero, sub_zero] at h
  have h' := gammaD.P_zero (k := nu / 2)
  simp only [gammaD.P] at h'
  have h0 : ¬ pinf ≤ fin 0 := by simp
  refine ⟨by simp [cdf, validate_ok hn], ?_, by simp [sf, validate_ok hn], ?_⟩
  · simp only [cdf, validate_ok hn, ok_bind, zero_def, one_def, ofNat_def, h0, if_false, fin_div _ two_ne_zero, fin_mul_pinf,
      scaleInf_pos two_pos, invgamma.one_div_pinf, mp.gammaincReg_pinf (half hn) le_rfl, h]
  · simp only [sf, validate_ok hn, ok_bind, zero_def, one_def, ofNat_def, h0, if_false, fin_div _ two_ne_zero, fin_mul_pinf,
      scaleInf_pos two_pos, invgamma.one_div_pinf, mp.gammaincReg_fin (half hn) le_rfl le_rfl, h']

/-- Non-vacuity -/
example : (0:ℝ) < 3 / 2 ∧ (3 / 2 : ℝ) ≤ 2 ∧ (4:ℝ) < 9 / 2 := by norm_num

end Mpsci.invchi2
