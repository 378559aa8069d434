import Verif.Model.Dist.Maxwell
import Verif.Lemmas.Dist.Chi
import Verif.Lemmas.Common

namespace Mpsci.maxwell

open Classical Num common Filter Topology Set

variable {loc s : ℝ}

theorem validate_ok (hs : 0 < s) : validateParams (fin loc) (fin s) = .ok (fin loc, fin s) := by simp [validateParams, hs.not_ge]
theorem validate_bad (h : ¬ 0 < s) : validateParams (fin loc) (fin s) = .error .valueError := by simp [validateParams, not_lt.1 h]

noncomputable def F (z : ℝ) : ℝ := nakD.F (3 / 2) (1 / 2) z
noncomputable def f (z : ℝ) : ℝ := nakD.f (3 / 2) (1 / 2) z
noncomputable def Q (p : ℝ) : ℝ := nakD.Q (3 / 2) (1 / 2) p

theorem h32 : (0:ℝ) < 3 / 2 := by norm_num
theorem h12 : (0:ℝ) < 1 / 2 := by norm_num

theorem isDist (hs : 0 < s) : IsDist (fun x => F ((x - loc) / s)) (fun x => f ((x - loc) / s) / s) := (nakD.isDist h32 h12).affine loc hs

theorem cdf_eval (hs : 0 < s) (x : ℝ) : cdf (fin x) (fin loc) (fin s) = .ok (fin (F ((x - loc) / s))) := by
  rcases le_or_gt x loc with h | h
  · simp [cdf, validate_ok hs, h, F, nakD.F_nonpos ((affine_le_zero hs).2 h)]
  · have hz : 0 < (x - loc) / s := (affine_gt_zero hs).2 h
    simp only [cdf, validate_ok hs, ok_bind, zero_def, fin_le, h.not_ge, if_false, fin_sub, fin_div _ hs.ne', mp.ipow_fin, ofNat_def,
      fin_div _ two_ne_zero, mp.gammaincReg_fin h32 le_rfl (show 0 ≤ ((x - loc) / s) ^ 2 / 2 by positivity), F, nakD.F_pos hz, gammaD.P,
      one_div_mul_eq_div]
theorem sf_eval (hs : 0 < s) (x : ℝ) : sf (fin x) (fin loc) (fin s) = .ok (fin (1 - F ((x - loc) / s))) := by
  rcases le_or_gt x loc with h | h
  · simp [sf, validate_ok hs, h, F, nakD.F_nonpos ((affine_le_zero hs).2 h)]
  · have hz : 0 < (x - loc) / s := (affine_gt_zero hs).2 h
    have hz2 : 0 ≤ ((x - loc) / s) ^ 2 / 2 := by positivity
    simp only [sf, validate_ok hs, ok_bind, zero_def, fin_le, h.not_ge, if_false, fin_sub, fin_div _ hs.ne', mp.ipow_fin, ofNat_def,
      fin_div _ two_ne_zero, mp.gammaincReg_pinf h32 hz2, F, nakD.F_pos hz, gammaD.gammaTail_eq h32 hz2, one_div_mul_eq_div]

theorem f_pos (hs : 0 < s) {x : ℝ} (h : loc < x) : 0 < f ((x - loc) / s) / s := div_pos (nakD.f_pos h32 h12 ((affine_gt_zero hs).2 h)) hs
theorem f_nonneg (x : ℝ) : 0 ≤ f x := nakD.f_nonneg h32 h12 x
theorem f_zero (hs : 0 < s) : ∀ x, x ∉ Ioi loc → f ((x - loc) / s) / s = 0 := fun x hx => by
  rw [f, nakD.f_nonpos ((affine_le_zero hs).2 (not_lt.1 hx)), zero_div]

theorem two_pi : 0 ≤ 2 / Real.pi := by positivity

theorem sqrt_pi_eq : √(2 / Real.pi) = 2 * (1 / 2) ^ (3 / 2 : ℝ) / (√Real.pi / 2) := by
  have h2 : √2 * √2 = 2 := Real.mul_self_sqrt zero_le_two
  have h3 : 0 < √2 := Real.sqrt_pos.2 two_pos
  have h4 : 0 < √Real.pi := Real.sqrt_pos.2 Real.pi_pos
  rw [show (3 / 2 : ℝ) = 1 + 1 / 2 by norm_num, Real.rpow_add (by norm_num), Real.rpow_one, ← Real.sqrt_eq_rpow, Real.sqrt_div zero_le_two,
    Real.sqrt_div zero_le_one, Real.sqrt_one]
  field_simp
  nlinarith

theorem f_eq {z : ℝ} (h : 0 < z) : f z = √(2 / Real.pi) * z ^ 2 * Real.exp (-z ^ 2 / 2) := by
  rw [f, nakD.f_eq h12 h, nakD.Gamma_three_halves, sqrt_pi_eq, show (2:ℝ) * (3 / 2) - 1 = (2:ℕ) by norm_num, Real.rpow_natCast,
    show -(1 / 2 * z ^ 2) = -z ^ 2 / 2 by ring]
  ring

theorem pdf_eval (hs : 0 < s) (x : ℝ) : pdf (fin x) (fin loc) (fin s) = .ok (fin (f ((x - loc) / s) / s)) := by
  rcases le_or_gt x loc with h | h
  · simp [pdf, validate_ok hs, h, f_zero hs x (not_lt.2 h)]
  · have hz : 0 < (x - loc) / s := (affine_gt_zero hs).2 h
    simp only [pdf, validate_ok hs, ok_bind, zero_def, fin_le, h.not_ge, if_false, fin_sub, fin_div _ hs.ne', mp.ipow_fin, ofNat_def,
      mp.pi_def, fin_div _ Real.pi_ne_zero, mp.sqrt_nonneg two_pi, neg_fin, fin_div _ two_ne_zero, mp.exp_fin, fin_mul, f_eq hz]
theorem logpdf_pos (hs : 0 < s) {x : ℝ} (h : loc < x) : logpdf (fin x) (fin loc) (fin s) = .ok (fin (Real.log (f ((x - loc) / s) / s))) := by
  have hz : 0 < (x - loc) / s := (affine_gt_zero hs).2 h
  have hp : 0 < 2 / Real.pi := by positivity
  rw [Real.log_div (show f ((x - loc) / s) ≠ 0 from (nakD.f_pos h32 h12 hz).ne') hs.ne', f_eq hz, Real.log_mul (by positivity) (by positivity),
    Real.log_mul (by positivity) (by positivity), Real.log_exp, Real.log_sqrt hp.le, Real.log_pow]
  simp only [logpdf, validate_ok hs, ok_bind, zero_def, fin_le, h.not_ge, if_false, fin_sub, fin_div _ hs.ne', mp.ipow_fin, ofNat_def,
    mp.pi_def, fin_div _ Real.pi_ne_zero, mp.log_pos hp, mp.log_pos hz, mp.log_pos hs, fin_div _ two_ne_zero, fin_add, fin_mul, pure_eq_ok]
  congr 2; push_cast; ring
theorem logpdf_low (hs : 0 < s) {x : ℝ} (h : x ≤ loc) : logpdf (fin x) (fin loc) (fin s) = .ok ninf := by
  simp [logpdf, validate_ok hs, h]

theorem pdf_returns (hs : 0 < s) (x : ℝ) : Spec.Returns (pdf (fin x) (fin loc) (fin s)) := ⟨_, pdf_eval hs x⟩
theorem logpdf_returns (hs : 0 < s) (x : ℝ) : Spec.Returns (logpdf (fin x) (fin loc) (fin s)) := by
  rcases le_or_gt x loc with h | h
  · exact ⟨_, logpdf_low hs h⟩
  · exact ⟨_, logpdf_pos hs h⟩

theorem F_Q (hs : 0 < s) (p : ℝ) (h0 : 0 < p) (h1 : p < 1) : F ((loc + s * Q p - loc) / s) = p := by
  rw [add_sub_cancel_left, mul_div_cancel_left₀ _ hs.ne']; exact nakD.F_Q h32 h12 p h0 h1
theorem F_mem (hs : 0 < s) {x : ℝ} (h : loc < x) : 0 < F ((x - loc) / s) ∧ F ((x - loc) / s) < 1 :=
  nakD.F_mem h32 h12 ((affine_gt_zero hs).2 h)
theorem F_unique (hs : 0 < s) {x : ℝ} (h : loc < x) (y : ℝ) (e : F ((y - loc) / s) = F ((x - loc) / s)) : y = x := by
  have := nakD.F_unique h32 h12 ((affine_gt_zero hs).2 h) _ e
  rwa [div_left_inj' hs.ne', sub_left_inj] at this
theorem F_lt_one (z : ℝ) : F z < 1 := by
  rcases le_or_gt z 0 with h | h
  · rw [F, nakD.F_nonpos h]; exact one_pos
  · exact (nakD.F_mem h32 h12 h).2

theorem cdf_pinf (hs : 0 < s) : cdf pinf (fin loc) (fin s) = .ok (fin 1) := by
  have h := gammaD.gammaTail_eq h32 le_rfl
  simp only [gammaD.P_zero, sub_zero] at h
  have h0 : ¬ pinf ≤ fin loc := by simp
  have h1 : pinf - fin loc = pinf := rfl
  simp only [cdf, validate_ok hs, ok_bind, zero_def, h0, if_false, h1, chi.ipow_pinf, pinf_div_pos hs, ofNat_def, pinf_div_pos two_pos,
    mp.gammaincReg_pinf h32 le_rfl, h]
theorem sf_pinf (hs : 0 < s) : sf pinf (fin loc) (fin s) = .ok (fin 0) := by
  have h0 : ¬ pinf ≤ fin loc := by simp
  have h1 : pinf - fin loc = pinf := rfl
  simp only [sf, validate_ok hs, ok_bind, zero_def, h0, if_false, h1, chi.ipow_pinf, pinf_div_pos hs, ofNat_def, pinf_div_pos two_pos,
    mp.gammaincReg_pinf_pinf h32]

/-- With a secant method that always succeeds, the fallback is not used. -/
theorem search_eq {findroot : (Num → M Num) → Num → Num → M Num} {newton : (Num → M Num) → Num → M Num} (hr : Spec.SecantFinder findroot)
    {func func2 : Num → M Num} {g : ℝ → ℝ} {p : ℝ} (hf : ∀ t, func (fin t) = .ok (fin (g t))) (hp : ∃ x, g x = p) {fuel : ℕ} {lo hi : ℝ}
    (h : findBracket fuel func (fin p) 0 pinf = .ok (fin lo, fin hi)) :
    search findroot newton fuel func func2 (fin p) = bracketRoot findroot fuel func (fin p) 0 pinf := by
  obtain ⟨x, hx⟩ := hp
  obtain ⟨r, h4, -⟩ := hr (fun t => do return (← func t) - fin p) (fun t => g t - p) lo hi
    (fun t => by simp only [hf, ok_bind, fin_sub, pure_eq_ok]) ⟨x, by rw [hx, sub_self]⟩
  simp only [search, bracketRoot, h, ok_bind, h4]
  rfl

theorem search_right {findroot : (Num → M Num) → Num → Num → M Num} {newton : (Num → M Num) → Num → M Num} (hr : Spec.SecantFinder findroot)
    {func func2 : Num → M Num} {g : ℝ → ℝ} {x T pb : ℝ} (hf : ∀ t, func (fin t) = .ok (fin (g t)))
    (hb : func pinf = .ok (fin pb)) (hne : g x ≠ pb) (hu : ∀ y, g y = g x → y = x)
    (hT : ∀ t, T ≤ t → ¬ (mp.sign (fin (g x - g t)) =. mp.sign (fin (pb - g 0)))) :
    Spec.Reaches (fun fuel => search findroot newton fuel func func2 (fin (g x))) (fin x) := by
  obtain ⟨lo, hi, N, -, -, h2⟩ := findBracket_returns (fun t _ => hf t) hb hne hT none
  obtain ⟨N', h3⟩ := bracketRoot_right hr hf hb hne hu hT none
  refine ⟨max N N', fun fuel hn => ?_⟩
  have h2 := h2 fuel ((le_max_left _ _).trans hn)
  have h3 := h3 fuel ((le_max_right _ _).trans hn)
  rw [← zero_def] at h2 h3
  exact (search_eq hr hf ⟨x, rfl⟩ h2).trans h3

/-! ### Moments -/

theorem mean1 : Real.Gamma (3 / 2 + 1 / 2) / Real.Gamma (3 / 2) / √(1 / 2) = 2 * √(2 / Real.pi) := by
  have h2 : √2 * √2 = 2 := Real.mul_self_sqrt zero_le_two
  have h3 : 0 < √2 := Real.sqrt_pos.2 two_pos
  have h4 : 0 < √Real.pi := Real.sqrt_pos.2 Real.pi_pos
  rw [nakD.Gamma_three_halves, show (3 / 2 + 1 / 2 : ℝ) = 2 by norm_num, Real.Gamma_two, Real.sqrt_div zero_le_two, Real.sqrt_div zero_le_one,
    Real.sqrt_one]
  field_simp

theorem hasMV (hs : 0 < s) : HasMV (fun x => f ((x - loc) / s) / s) (loc + s * 2 * √(2 / Real.pi)) (s ^ 2 * (3 * Real.pi - 8) / Real.pi) := by
  have := hasMV_of_affine (isDist (loc := loc) hs) (F_Q hs) (nakD.Y1 h32 h12) (nakD.Y2 h32 h12)
  rw [mean1] at this
  have hp := Real.pi_pos
  rwa [mul_pow, Real.sq_sqrt two_pi, ← mul_assoc s, show s ^ 2 * (3 / 2 / (1 / 2) - 2 ^ 2 * (2 / Real.pi)) =
    s ^ 2 * (3 * Real.pi - 8) / Real.pi by field_simp; ring] at this

theorem mean_eval (hs : 0 < s) : mean (fin loc) (fin s) = .ok (fin (loc + s * 2 * √(2 / Real.pi))) := by
  simp only [mean, validate_ok hs, ok_bind, ofNat_def, mp.pi_def, fin_div _ Real.pi_ne_zero, mp.sqrt_nonneg two_pi, fin_mul, fin_add, pure_eq_ok]
theorem var_eval (hs : 0 < s) : var (fin loc) (fin s) = .ok (fin (s ^ 2 * (3 * Real.pi - 8) / Real.pi)) := by
  simp only [var, validate_ok hs, ok_bind, ofNat_def, mp.pi_def, mp.ipow_fin, fin_mul, fin_sub, fin_div _ Real.pi_ne_zero]
theorem mode_eval (hs : 0 < s) : mode (fin loc) (fin s) = .ok (fin (loc + s * √2)) := by
  simp only [mode, validate_ok hs, ok_bind, ofNat_def, mp.sqrt_nonneg zero_le_two, fin_mul, fin_add, pure_eq_ok]

theorem hasEnt : HasEnt f (Real.log √(2 * Real.pi) + Real.eulerMascheroniConstant - 1 / 2) := by
  have h := nakD.hasEnt h32 h12
  have hp := Real.pi_pos
  rwa [nakD.Gamma_three_halves, nakD.psi_three_halves, Real.log_div (Real.sqrt_pos.2 hp).ne' two_ne_zero, one_div, Real.log_inv,
    Real.log_sqrt hp.le, show (2⁻¹ - 3 / 2) * (2 - Real.eulerMascheroniConstant - 2 * Real.log 2) - -Real.log 2 / 2 + 3 / 2 +
      (Real.log Real.pi / 2 - Real.log 2) - Real.log 2 = Real.log √(2 * Real.pi) + Real.eulerMascheroniConstant - 1 / 2 by
        rw [Real.log_sqrt (by positivity), Real.log_mul two_ne_zero hp.ne']; ring, ← one_div] at h

end Mpsci.maxwell
