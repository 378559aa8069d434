import Verif.Lemmas.Dist.BetaPrime

/-! Properties of `betaprime`. -/

namespace Mpsci.betaprime

open Classical Num Spec common Filter Topology Set bpD

variable {a b s : ℝ} {findroot : (Num → M Num) → Num → Num → M Num}

/-- C01 -/
theorem complementary (ha : 0 < a) (hb : 0 < b) (hs : 0 < s) :
    Complementary (cdf · (fin a) (fin b) (fin s)) (sf · (fin a) (fin b) (fin s)) :=
  complementary_of (cdf_eval ha hb hs) (sf_eval ha hb hs)

/-- C02 -/
theorem isCdf (ha : 0 < a) (hb : 0 < b) (hs : 0 < s) : IsCdf (cdf · (fin a) (fin b) (fin s)) :=
  (isDist ha hb hs).isCdf (cdf_eval ha hb hs)

theorem pdf_off (ha : 0 < a) (hb : 0 < b) (hs : 0 < s) :
    RealFnOff (E a) (pdf · (fin a) (fin b) (fin s)) (fun x => f a b (x / s) / s) := fun _ hx => pdf_eval ha hb hs hx

/-- C03: away from 0 when `a < 1` -/
theorem isDensity (ha : 0 < a) (hb : 0 < b) (hs : 0 < s) :
    IsDensity (E a) (Ici 0) (pdf · (fin a) (fin b) (fin s)) (cdf · (fin a) (fin b) (fin s)) :=
  (isDist ha hb hs).isDensity (pdf_off ha hb hs) (cdf_eval ha hb hs) fun x hx => by
    rw [f_neg ((div_lt_zero' hs).2 (not_le.1 hx)), zero_div]

/-- C04, C42: away from 0 when `a < 1` -/
theorem isLogOf (ha : 0 < a) (hb : 0 < b) (hs : 0 < s) :
    IsLogOf (E a) (pdf · (fin a) (fin b) (fin s)) (logpdf · (fin a) (fin b) (fin s)) := by
  refine isLogOf_of (P := {x | 0 < x ∨ x = 0 ∧ a = 1}) (g := fun x => f a b (x / s) / s) (fun x _ h => ?_) (fun x hx h => ?_)
    (fun x hx => pdf_eval ha hb hs hx) (fun x hx h => ?_) (fun x hx h => ?_)
  · rcases h with h | ⟨rfl, rfl⟩
    · exact div_pos (by rw [f_of_nonneg (div_pos h hs).le]; exact g_pos ha hb (div_pos h hs)) hs
    · refine div_pos ?_ hs
      rw [zero_div, f_of_nonneg le_rfl, g]
      simpa using betaFn_pos one_pos hb
  · simp only [mem_setOf_eq, not_or, not_lt, not_and] at h
    rcases h.1.eq_or_lt with rfl | h0
    · have h1 : ¬ a < 1 := fun h1 => hx ⟨rfl, h1⟩
      rw [zero_div, f_zero ((not_lt.1 h1).lt_of_ne' (h.2 rfl)), zero_div]
    · rw [f_neg ((div_lt_zero' hs).2 h0), zero_div]
  · rcases h with h | ⟨rfl, rfl⟩
    · exact logpdf_pos ha hb hs h
    · have hB := betaFn_pos one_pos hb
      rw [logpdf_zero ha hb hs, if_neg (lt_irrefl _), if_pos rfl, zero_div, f_of_nonneg le_rfl, g]
      simp only [sub_self, Real.rpow_zero, add_zero, Real.one_rpow, div_one]
      rw [Real.log_div (by positivity) hs.ne', one_div, Real.log_inv]
  · simp only [mem_setOf_eq, not_or, not_lt, not_and] at h
    rcases h.1.eq_or_lt with rfl | h0
    · have h1 : ¬ a < 1 := fun h1 => hx ⟨rfl, h1⟩
      simp only [logpdf_zero ha hb hs, if_neg h1, if_neg (h.2 rfl)]
    · exact logpdf_neg ha hb hs h0

/-- C04, C42: where the density is infinite both functions return infinity. -/
theorem pole (ha : 0 < a) (hb : 0 < b) (hs : 0 < s) {x : ℝ} (hx : x ∈ E a) :
    pdf (fin x) (fin a) (fin b) (fin s) = .ok pinf ∧ logpdf (fin x) (fin a) (fin b) (fin s) = .ok pinf := by
  obtain ⟨rfl, h⟩ := hx
  exact ⟨by simp [pdf, validate_ok ha hb hs, h], by rw [logpdf_zero ha hb hs, if_pos h]⟩

/-- C05: assuming that the secant method finds the root -/
theorem inverts_cdf (hr : SecantFinder findroot) (ha : 0 < a) (hb : 0 < b) (hs : 0 < s) :
    InvertsSearch (Ioi 0) (cdf · (fin a) (fin b) (fin s)) (fun fuel p => invcdf findroot fuel p (fin a) (fin b) (fin s)) := by
  refine invertsSearch_of (F := fun x => F a b (x / s)) (fun x _ => cdf_eval ha hb hs x) (fun x hx => F_mems ha hb hs hx)
    (fun p h0 h1 => ⟨_, mul_pos hs (Q_pos p), F_Qs ha hb hs p h0 h1⟩) fun x hx => ?_
  obtain ⟨h0, h1⟩ := F_mems ha hb hs hx
  obtain ⟨N, h⟩ := bracketRoot_right hr (func := fun x => cdf x (fin a) (fin b) (fin s)) (g := fun x => F a b (x / s)) (a := 0) (T := x)
    (cdf_eval ha hb hs) (cdf_pinf ha hb hs) h1.ne (F_unique ha hb hs hx)
    (pass_up (isDist ha hb hs).mono (by simp [F_nonpos])) none
  refine ⟨N, fun fuel hn => ?_⟩
  simp only [invcdf, validate_ok ha hb hs, ok_bind, validateP_ok h0.le h1.le, zero_def, one_def, fin_eq, h0.ne', h1.ne, if_false]
  exact h fuel hn

/-- C05: assuming that the secant method finds the root -/
theorem inverts_sf (hr : SecantFinder findroot) (ha : 0 < a) (hb : 0 < b) (hs : 0 < s) :
    InvertsSearch (Ioi 0) (sf · (fin a) (fin b) (fin s)) (fun fuel p => invsf findroot fuel p (fin a) (fin b) (fin s)) := by
  have hm : ∀ x ∈ Ioi (0:ℝ), 0 < 1 - F a b (x / s) ∧ 1 - F a b (x / s) < 1 := fun x hx => by
    obtain ⟨h0, h1⟩ := F_mems ha hb hs hx
    exact ⟨by linarith, by linarith⟩
  refine invertsSearch_of (F := fun x => 1 - F a b (x / s)) (fun x _ => sf_eval ha hb hs x) hm
    (fun p h0 h1 => ⟨_, mul_pos hs (Q_pos (1 - p)), by rw [F_Qs ha hb hs (1 - p) (by linarith) (by linarith)]; ring⟩)
    fun x hx => ?_
  obtain ⟨h0, h1⟩ := hm x hx
  obtain ⟨N, h⟩ := bracketRoot_right hr (func := fun x => sf x (fin a) (fin b) (fin s)) (g := fun x => 1 - F a b (x / s)) (a := 0) (T := x)
    (sf_eval ha hb hs) (sf_pinf ha hb hs) h0.ne' (fun y h => F_unique ha hb hs hx y (by linarith))
    (pass_down (fun a b h => sub_le_sub_left ((isDist ha hb hs).mono h) 1) (by simp [F_nonpos])) none
  refine ⟨N, fun fuel hn => ?_⟩
  simp only [invsf, validate_ok ha hb hs, ok_bind, validateP_ok h0.le h1.le, zero_def, one_def, fin_eq, h0.ne', h1.ne, if_false]
  exact h fuel hn

/-- C06 -/
theorem rejects_p (fuel : ℕ) : RejectsBadP (invcdf findroot fuel · (fin a) (fin b) (fin s)) ∧
    RejectsBadP (invsf findroot fuel · (fin a) (fin b) (fin s)) := by
  by_cases h : 0 < a ∧ 0 < b ∧ 0 < s
  · constructor <;> intro p hp <;> simp [invcdf, invsf, validateP_bad hp, validate_ok h.1 h.2.1 h.2.2]
  · constructor <;> intro p hp <;> simp [invcdf, invsf, validateP_bad hp, validate_bad h]

/-- C07 -/
theorem validates (x : ℝ) :
    ValidatesExactly (0 < a ∧ 0 < b ∧ 0 < s) (cdf (fin x) (fin a) (fin b) (fin s)) ∧
    ValidatesExactly (0 < a ∧ 0 < b ∧ 0 < s) (sf (fin x) (fin a) (fin b) (fin s)) ∧
    ValidatesExactly (0 < a ∧ 0 < b ∧ 0 < s) (pdf (fin x) (fin a) (fin b) (fin s)) ∧
    ValidatesExactly (0 < a ∧ 0 < b ∧ 0 < s) (logpdf (fin x) (fin a) (fin b) (fin s)) ∧
    ValidatesExactly (0 < a ∧ 0 < b ∧ 0 < s) (mode (fin a) (fin b) (fin s)) ∧
    ValidatesExactly (0 < a ∧ 0 < b ∧ 0 < s) (mean (fin a) (fin b) (fin s)) ∧
    ValidatesExactly (0 < a ∧ 0 < b ∧ 0 < s) (entropy (fin a) (fin b) (fin s)) := by
  refine ⟨⟨fun h => ⟨_, cdf_eval h.1 h.2.1 h.2.2 x⟩, fun h => ?_⟩, ⟨fun h => ⟨_, sf_eval h.1 h.2.1 h.2.2 x⟩, fun h => ?_⟩,
    ⟨fun h => ?_, fun h => ?_⟩, ⟨fun h => ?_, fun h => ?_⟩, ⟨fun h => ?_, fun h => ?_⟩, ⟨fun h => ?_, fun h => ?_⟩,
    ⟨fun h => ⟨_, entropy_eval h.1 h.2.1 h.2.2⟩, fun h => ?_⟩⟩
  case refine_3 =>
    by_cases hx : x ∈ E a
    · exact ⟨_, (pole h.1 h.2.1 h.2.2 hx).1⟩
    · exact ⟨_, pdf_eval h.1 h.2.1 h.2.2 hx⟩
  case refine_5 =>
    rcases lt_trichotomy x 0 with h0 | rfl | h0
    · exact ⟨_, logpdf_neg h.1 h.2.1 h.2.2 h0⟩
    · exact ⟨_, logpdf_zero h.1 h.2.1 h.2.2⟩
    · exact ⟨_, logpdf_pos h.1 h.2.1 h.2.2 h0⟩
  case refine_7 =>
    by_cases h1 : a < 1
    · exact ⟨0, by simp [mode, validate_ok h.1 h.2.1 h.2.2, h1]⟩
    · exact ⟨_, mode_eval (not_lt.1 h1) h.2.1 h.2.2⟩
  case refine_9 =>
    by_cases h1 : b ≤ 1
    · exact ⟨pinf, by simp [mean, validate_ok h.1 h.2.1 h.2.2, h1]⟩
    · exact ⟨_, mean_eval h.1 (not_le.1 h1) h.2.2⟩
  all_goals simp [cdf, sf, pdf, logpdf, mode, mean, entropy, validate_bad h]

/-- C07 -/
theorem validates_rest (h : ¬ (0 < a ∧ 0 < b ∧ 0 < s)) (fuel : ℕ) (p : Num) (n : ℕ) :
    invcdf findroot fuel p (fin a) (fin b) (fin s) = .error .valueError ∧
    invsf findroot fuel p (fin a) (fin b) (fin s) = .error .valueError ∧
    support (fin a) (fin b) (fin s) = .error .valueError ∧ var (fin a) (fin b) (fin s) = .error .valueError ∧
    skewness (fin a) (fin b) (fin s) = .error .valueError ∧ kurtosis (fin a) (fin b) (fin s) = .error .valueError ∧
    noncentralMoment n (fin a) (fin b) (fin s) = .error .valueError := by
  have hv : validateMomentN (n : ℤ) = .ok n := by simp [validateMomentN]
  simp [invcdf, invsf, support, var, skewness, kurtosis, noncentralMoment, hv, validate_bad h]

/-- C08 -/
theorem scale (ha : 0 < a) (hb : 0 < b) : ScaleInvariant (fun x s => cdf x (fin a) (fin b) s) ∧
    ScaleInvariant (fun x s => sf x (fin a) (fin b) s) :=
  ⟨scale_of_std fun x _ hs => cdf_eval ha hb hs x,
   scale_of_std (G := fun z => 1 - F a b z) fun x _ hs => sf_eval ha hb hs x⟩

/-- C08 -/
theorem scale_pdf (ha : 1 ≤ a) (hb : 0 < b) : ScaleDensity (fun x s => pdf x (fin a) (fin b) s) :=
  scaleDensity_of_std fun x _ hs => pdf_eval (by linarith) hb hs fun h => ha.not_gt h.2

/-- C09 -/
theorem isMode (ha : 1 ≤ a) (hb : 0 < b) (hs : 0 < s) :
    IsMode ∅ (pdf · (fin a) (fin b) (fin s)) (mode (fin a) (fin b) (fin s)) := by
  have h0 : 0 < a := by linarith
  refine isMode_of (mode_eval ha hb hs) (fun x _ => pdf_eval h0 hb hs fun h => ha.not_gt h.2) (by simp) (fun y _ => ?_)
  rw [mul_div_assoc, mul_div_cancel_left₀ _ hs.ne']
  exact div_le_div_of_nonneg_right (f_le ha hb _) hs.le

/-- C09: for `a < 1` the mode is 0, where the density is infinite, and the density decreases from there. -/
theorem mode_pole (ha : 0 < a) (ha1 : a < 1) (hb : 0 < b) (hs : 0 < s) : mode (fin a) (fin b) (fin s) = .ok (fin 0) ∧
    pdf (fin 0) (fin a) (fin b) (fin s) = .ok pinf ∧
    ∀ x y : ℝ, 0 < x → x < y → ∃ u v : ℝ, pdf (fin x) (fin a) (fin b) (fin s) = .ok (fin u) ∧
      pdf (fin y) (fin a) (fin b) (fin s) = .ok (fin v) ∧ v < u := by
  refine ⟨by simp [mode, validate_ok ha hb hs, ha1], (pole ha hb hs ⟨rfl, ha1⟩).1, fun x y hx hxy => ⟨_, _,
    pdf_eval ha hb hs fun h => hx.ne' h.1, pdf_eval ha hb hs fun h => (hx.trans hxy).ne' h.1, ?_⟩⟩
  have h1 := div_pos hx hs
  have h2 : x / s < y / s := div_lt_div_of_pos_right hxy hs
  rw [f_of_nonneg h1.le, f_of_nonneg (h1.trans h2).le]
  exact div_lt_div_of_pos_right (g_anti ha ha1.le hb h1 h2) hs

/-- C12: the reciprocal of a beta prime variable has the parameters exchanged. -/
theorem reciprocal (ha : 0 < a) (hb : 0 < b) (hs : 0 < s) {x : ℝ} (hx : 0 < x) :
    sf (fin x) (fin a) (fin b) (fin s) = cdf (fin (1 / x)) (fin b) (fin a) (fin (1 / s)) := by
  have hs' : 0 < 1 / s := by positivity
  have hz := div_pos hx hs
  rw [sf_eval ha hb hs, cdf_eval hb ha hs', show 1 / x / (1 / s) = 1 / (x / s) by field_simp, F_pos hz, F_pos (by positivity),
    ← betaD.P_compl ha hb (u_nonneg hz.le) (u_lt_one hz.le).le, one_sub_u hz.le]
  congr 3
  rw [u]; field_simp; ring

/-- C37 -/
theorem isMean (ha : 0 < a) (hb : 1 < b) (hs : 0 < s) : IsMean (E a) (pdf · (fin a) (fin b) (fin s)) (mean (fin a) (fin b) (fin s)) := by
  have h0 : 0 < b := by linarith
  have h := (Y1 ha hb).mul s
  have := isMoment_of_int01 (n := 1) (pdf := (pdf · (fin a) (fin b) (fin s))) E_finite (pdf_off ha h0 hs) (isDist ha h0 hs)
    (F_Qs ha h0 hs) (by simpa only [pow_one] using h) ((mean_eval ha hb hs).trans (by rw [m_one ha hb, mul_div_assoc]))
  obtain ⟨hE, g, m, h1, h2, h3, h4⟩ := this
  simp only [pow_one] at h3 h4
  exact ⟨hE, g, m, h1, h2, h3, h4⟩

/-- C37: `mean` returns infinity only where there is no finite mean. -/
theorem mean_inf (ha : 0 < a) (h0 : 0 < b) (hb : b ≤ 1) (hs : 0 < s) : mean (fin a) (fin b) (fin s) = .ok pinf ∧
    ¬ ∃ r, IsMean (E a) (pdf · (fin a) (fin b) (fin s)) r :=
  ⟨by simp [mean, validate_ok ha h0 hs, hb], not_isMean_aff hs.ne' (pdf_off ha h0 hs) (isDist ha h0 hs) (F_Q0 ha h0 hs)
    (not_int ha h0 1 (by simpa using hb))⟩

/-- C37 -/
theorem isVar (ha : 0 < a) (hb : 2 < b) (hs : 0 < s) : IsVar (E a) (pdf · (fin a) (fin b) (fin s)) (var (fin a) (fin b) (fin s)) :=
  (hasMV ha hb hs).isVar E_finite (pdf_off ha (by linarith) hs) (by rw [var_eval ha hb hs, var_eq ha hb, mul_div_assoc])

/-- C37: `var` returns nan only where there is no finite variance. -/
theorem var_nan (ha : 0 < a) (h0 : 0 < b) (hb : b ≤ 2) (hs : 0 < s) : var (fin a) (fin b) (fin s) = .ok nan ∧
    ¬ ∃ r, IsVar (E a) (pdf · (fin a) (fin b) (fin s)) r :=
  ⟨by simp only [var, validate_ok ha h0 hs, ok_bind, ofNat_def, fin_le, hb, if_true, pure_eq_ok],
    not_isVar_aff hs.ne' (pdf_off ha h0 hs) (isDist ha h0 hs) (F_Q0 ha h0 hs) (not_int ha h0 2 (by simpa using hb))⟩

theorem fs_nonneg (ha : 0 < a) (hb : 0 < b) (hs : 0 < s) (x : ℝ) : 0 ≤ f a b (x / s) / s := div_nonneg (f_nonneg ha hb _) hs.le

/-- C37 -/
theorem isSkewness (ha : 0 < a) (hb : 3 < b) (hs : 0 < s) :
    IsSkewness (E a) (pdf · (fin a) (fin b) (fin s)) (skewness (fin a) (fin b) (fin s)) := by
  have h0 : 0 < b := by linarith
  have h1 : 0 < b - 1 := by linarith
  have h2 : 0 < b - 2 := by linarith
  have h3 : 0 < b - 3 := by linarith
  have h4 : 0 < a + b - 1 := by linarith
  refine isSkewness_of E_finite (pdf_off ha h0 hs) (isDist ha h0 hs) (fs_nonneg ha h0 hs) (F_Q0 ha h0 hs)
    (Y1 ha (by linarith)) (Yn ha h0 2 (by push_cast; linarith)) (Yn ha h0 3 (by exact_mod_cast hb)) fun hv => ?_
  have hm2 : betaFn (a + (2:ℕ)) (b - (2:ℕ)) / betaFn a b = m a b 2 := rfl
  have hm3 : betaFn (a + (3:ℕ)) (b - (3:ℕ)) / betaFn a b = m a b 3 := rfl
  rw [hm2, hm3, var_eq ha (by linarith), m_three ha hb, m_two ha (by linarith), m_one ha (by linarith)]
  have hA : 0 < a * (a + b - 1) := by positivity
  have hr : 0 < (b - 2) / (a * (a + b - 1)) := by positivity
  have q := Real.sqrt_pos.2 hr
  set v := √((b - 2) / (a * (a + b - 1))) with hv'
  have hv2 : v ^ 2 = (b - 2) / (a * (a + b - 1)) := Real.sq_sqrt hr.le
  have e : (s ^ 2 * (a * (a + b - 1) / ((b - 2) * (b - 1) ^ 2))) ^ (3 / 2 : ℝ) = (s / ((b - 1) * v)) ^ 3 := by
    rw [show s ^ 2 * (a * (a + b - 1) / ((b - 2) * (b - 1) ^ 2)) = (s / ((b - 1) * v)) ^ 2 by
      rw [div_pow, mul_pow, hv2]; field_simp, ← Real.rpow_natCast _ 2, ← Real.rpow_mul (by positivity)]
    norm_num
  have c : ¬ b ≤ 3 := not_le.2 hb
  simp only [skewness, validate_ok ha h0 hs, ok_bind, one_def, ofNat_def, fin_le, c, if_false, fin_mul, fin_add, fin_sub, fin_div _ h3.ne',
    fin_div _ hA.ne', mp.sqrt_nonneg hr.le, pure_eq_ok]
  rw [← hv', e]
  congr 2
  have e1 : (s / ((b - 1) * v)) ^ 3 = s ^ 3 / ((b - 1) ^ 3 * ((b - 2) / (a * (a + b - 1)) * v)) := by
    rw [← hv2]; field_simp
  rw [e1]
  field_simp
  ring

/-- C37: `skewness` returns nan only where it does not exist. -/
theorem skewness_nan (ha : 0 < a) (h0 : 0 < b) (hb : b ≤ 3) (hs : 0 < s) : skewness (fin a) (fin b) (fin s) = .ok nan ∧
    ¬ ∃ r, IsSkewness (E a) (pdf · (fin a) (fin b) (fin s)) r :=
  ⟨by simp only [skewness, validate_ok ha h0 hs, ok_bind, ofNat_def, fin_le, hb, if_true, pure_eq_ok],
    not_isSkewness_aff hs.ne' (pdf_off ha h0 hs) (isDist ha h0 hs) (F_Q0 ha h0 hs) (not_int ha h0 3 (by simpa using hb))⟩

/-- C37 -/
theorem isKurtosis (ha : 0 < a) (hb : 4 < b) (hs : 0 < s) :
    IsKurtosis (E a) (pdf · (fin a) (fin b) (fin s)) (kurtosis (fin a) (fin b) (fin s)) := by
  have h0 : 0 < b := by linarith
  have h1 : 0 < b - 1 := by linarith
  have h2 : 0 < b - 2 := by linarith
  have h3 : 0 < b - 3 := by linarith
  have h4 : 0 < b - 4 := by linarith
  have h5 : 0 < a + b - 1 := by linarith
  refine isKurtosis_of E_finite (pdf_off ha h0 hs) (isDist ha h0 hs) (fs_nonneg ha h0 hs) (F_Q0 ha h0 hs)
    (Y1 ha (by linarith)) (Yn ha h0 2 (by push_cast; linarith)) (Yn ha h0 3 (by push_cast; linarith)) (Yn ha h0 4 (by exact_mod_cast hb))
    fun _ hv => ?_
  have hm2 : betaFn (a + (2:ℕ)) (b - (2:ℕ)) / betaFn a b = m a b 2 := rfl
  have hm3 : betaFn (a + (3:ℕ)) (b - (3:ℕ)) / betaFn a b = m a b 3 := rfl
  have hm4 : betaFn (a + (4:ℕ)) (b - (4:ℕ)) / betaFn a b = m a b 4 := rfl
  have hs4 : (s ^ 2 * (a * (a + b - 1)) / ((b - 2) * (b - 1) ^ 2)) ^ 2 ≠ 0 := by positivity
  have c : ¬ b ≤ 4 := not_le.2 hb
  have n1 := moment_eval ha hs 1 (show ((1:ℕ):ℝ) < b by push_cast; linarith)
  have n2 := moment_eval ha hs 2 (show ((2:ℕ):ℝ) < b by push_cast; linarith)
  have n3 := moment_eval ha hs 3 (show ((3:ℕ):ℝ) < b by push_cast; linarith)
  have n4 := moment_eval ha hs 4 (show ((4:ℕ):ℝ) < b by push_cast; linarith)
  simp only [Nat.cast_one, Nat.cast_ofNat] at n1 n2 n3 n4
  simp only [kurtosis, validate_ok ha h0 hs, ok_bind, one_def, ofNat_def, fin_le, c, if_false, n1, n2, n3, n4, mean_eval ha (by linarith : 1 < b) hs,
    var_eval ha (by linarith : 2 < b) hs, mp.ipow_fin, fin_mul, fin_add, fin_sub, fin_div _ hs4, pure_eq_ok]
  rw [hm2, hm3, hm4, var_eq ha (by linarith), m_four ha hb, m_three ha (by linarith), m_two ha (by linarith), m_one ha (by linarith)]
  congr 2
  field_simp
  ring

/-- C37: `kurtosis` returns nan only where it does not exist. -/
theorem kurtosis_nan (ha : 0 < a) (h0 : 0 < b) (hb : b ≤ 4) (hs : 0 < s) : kurtosis (fin a) (fin b) (fin s) = .ok nan ∧
    ¬ ∃ r, IsKurtosis (E a) (pdf · (fin a) (fin b) (fin s)) r :=
  ⟨by simp only [kurtosis, validate_ok ha h0 hs, ok_bind, ofNat_def, fin_le, hb, if_true, pure_eq_ok],
    not_isKurtosis_aff hs.ne' (pdf_off ha h0 hs) (isDist ha h0 hs) (F_Q0 ha h0 hs) (not_int ha h0 4 (by simpa using hb))⟩

/-- C37 -/
theorem isEntropy (ha : 0 < a) (hb : 0 < b) (hs : 0 < s) :
    IsEntropy (E a) (pdf · (fin a) (fin b) (fin s)) (entropy (fin a) (fin b) (fin s)) :=
  ((hasEnt ha hb).scale hs (f_nonneg ha hb)).isEntropy E_finite (pdf_off ha hb hs) (entropy_eval ha hb hs)

/-- C37, C50: the moment of every order `n < b`. -/
theorem isMoment (ha : 0 < a) (n : ℕ) (hn : n < b) (hs : 0 < s) :
    IsMoment (E a) (pdf · (fin a) (fin b) (fin s)) n (noncentralMoment n (fin a) (fin b) (fin s)) := by
  have hb : 0 < b := lt_of_le_of_lt (Nat.cast_nonneg n) hn
  exact isMoment_of_int01 E_finite (pdf_off ha hb hs) (isDist ha hb hs) (Q := fun p => s * Q a b p) (F_Qs ha hb hs)
    (((Yn ha hb n hn).mul (s ^ n)).congr fun p _ _ => by simp only [mul_pow]) (moment_eval ha hs n hn)

/-- C50: nan only where the moment does not exist. -/
theorem moment_nan (ha : 0 < a) (hb : 0 < b) (n : ℕ) (hn : b ≤ n) (hs : 0 < s) :
    noncentralMoment n (fin a) (fin b) (fin s) = .ok nan ∧ ¬ ∃ r, IsMoment (E a) (pdf · (fin a) (fin b) (fin s)) n r := by
  have hv : validateMomentN (n : ℤ) = .ok n := by simp [validateMomentN]
  exact ⟨by simp only [noncentralMoment, hv, ok_bind, validate_ok ha hb hs, ge_iff, fin_le, hn, if_true, pure_eq_ok],
    not_isMoment_aff hs.ne' (pdf_off ha hb hs) (isDist ha hb hs) (F_Q0 ha hb hs) (not_int ha hb n hn)⟩

/-- C50 -/
theorem moment_negative (n : ℤ) (h : n < 0) (a b s : Num) : noncentralMoment n a b s = .error .valueError := by
  simp [noncentralMoment, validateMomentN, h]

/-- C50 -/
theorem moments_agree (ha : 0 < a) (hb : 2 < b) (hs : 0 < s) : ∃ m v m2 : ℝ, mean (fin a) (fin b) (fin s) = .ok (fin m) ∧
    noncentralMoment 1 (fin a) (fin b) (fin s) = .ok (fin m) ∧ var (fin a) (fin b) (fin s) = .ok (fin v) ∧
    noncentralMoment 2 (fin a) (fin b) (fin s) = .ok (fin m2) ∧ v = m2 - m ^ 2 ∧
    noncentralMoment 0 (fin a) (fin b) (fin s) = .ok (fin 1) := by
  have n0 := moment_eval ha hs 0 (show ((0:ℕ):ℝ) < b by push_cast; linarith)
  have n1 := moment_eval ha hs 1 (show ((1:ℕ):ℝ) < b by push_cast; linarith)
  have n2 := moment_eval ha hs 2 (show ((2:ℕ):ℝ) < b by push_cast; linarith)
  simp only [Nat.cast_zero, Nat.cast_one, Nat.cast_ofNat] at n0 n1 n2
  refine ⟨_, _, _, mean_eval ha (by linarith) hs, n1.trans ?_, var_eval ha hb hs, n2, ?_, n0.trans ?_⟩
  · rw [m_one ha (by linarith), pow_one, mul_div_assoc]
  · have h := var_eq ha hb
    have h1 := m_one ha (by linarith : 1 < b)
    rw [mul_div_assoc, ← h, h1]; ring
  · rw [m_zero ha (by linarith), pow_zero, mul_one]

/-- C41 -/
theorem endPoints (ha : 0 < a) (hb : 0 < b) (hs : 0 < s) (fuel : ℕ) :
    EndPoints (invcdf findroot fuel · (fin a) (fin b) (fin s)) 0 pinf ∧
    invsf findroot fuel 1 (fin a) (fin b) (fin s) = .ok 0 ∧ support (fin a) (fin b) (fin s) = .ok (0, pinf) := by
  have h0 := validateP_ok (p := 0) le_rfl zero_le_one
  have h1 := validateP_ok (p := 1) zero_le_one le_rfl
  refine ⟨⟨?_, ?_⟩, ?_, ?_⟩ <;>
  simp [invcdf, invsf, support, validate_ok ha hb hs, h0, h1]

/-- C41 fails for `invsf` at 0: it returns 1, where the survival function is positive, instead of infinity. -/
theorem invsf_zero_fails (ha : 0 < a) (hb : 0 < b) (hs : 0 < s) (fuel : ℕ) :
    invsf findroot fuel 0 (fin a) (fin b) (fin s) = .ok 1 ∧
    ∃ q : ℝ, sf 1 (fin a) (fin b) (fin s) = .ok (fin q) ∧ 0 < q := by
  have h0 := validateP_ok (p := 0) le_rfl zero_le_one
  refine ⟨by simp [invsf, validate_ok ha hb hs, h0], _, sf_eval ha hb hs 1, ?_⟩
  have := (F_mems ha hb hs one_pos).2
  linarith

/-- C48 -/
theorem atInfinities (ha : 0 < a) (hb : 0 < b) (hs : 0 < s) :
    AtInfinities (cdf · (fin a) (fin b) (fin s)) (sf · (fin a) (fin b) (fin s)) := by
  refine ⟨?_, ?_, ?_, ?_⟩ <;> simp [cdf, sf, validate_ok ha hb hs]

/-- Non-vacuity: parameters with all moments up to the fourth and a bounded density, and with neither; a root finder. -/
example : ((0:ℝ) < 2 ∧ (4:ℝ) < 5 ∧ E 2 = ∅) ∧ (0:ℝ) ∈ E (1 / 2) ∧ ∃ r, SecantFinder r := by
  refine ⟨⟨by norm_num, by norm_num, ?_⟩, ⟨rfl, by norm_num⟩, exists_secantFinder⟩
  ext x; simp only [E, mem_setOf_eq, mem_empty_iff_false, iff_false]; norm_num

end Mpsci.betaprime
