import Verif.Model.Dist.Nakagami
import Verif.Lemmas.Dist.Chi
import Verif.Lemmas.Psi

namespace Mpsci.nakagami

open Classical Num common Filter Topology Set

variable {nu loc s : ℝ}

theorem validate_ok (hn : 0 < nu) (hs : 0 < s) : validateParams (fin nu) (fin loc) (fin s) = .ok (fin nu, fin loc, fin s) := by
  simp [validateParams, hn.not_ge, hs.not_ge]
theorem validate_bad (h : ¬ (0 < nu ∧ 0 < s)) : validateParams (fin nu) (fin loc) (fin s) = .error .valueError := by
  by_cases hk : nu ≤ 0
  · simp [validateParams, hk]
  have : s ≤ 0 := by
    by_contra hs; exact h ⟨not_le.1 hk, not_le.1 hs⟩
  simp [validateParams, hk, this]

noncomputable def F (nu z : ℝ) : ℝ := nakD.F nu nu z
noncomputable def f (nu z : ℝ) : ℝ := nakD.f nu nu z
noncomputable def Q (nu p : ℝ) : ℝ := nakD.Q nu nu p

theorem isDist (hn : 0 < nu) (hs : 0 < s) : IsDist (fun x => F nu ((x - loc) / s)) (fun x => f nu ((x - loc) / s) / s) :=
  (nakD.isDist hn hn).affine loc hs

theorem cdf_eval (hn : 0 < nu) (hs : 0 < s) (x : ℝ) : cdf (fin x) (fin nu) (fin loc) (fin s) = .ok (fin (F nu ((x - loc) / s))) := by
  rcases le_or_gt x loc with h | h
  · simp [cdf, validate_ok hn hs, h, F, nakD.F_nonpos ((affine_le_zero hs).2 h)]
  · have hz : 0 < (x - loc) / s := (affine_gt_zero hs).2 h
    simp only [cdf, validate_ok hn hs, ok_bind, zero_def, fin_le, h.not_ge, if_false, fin_sub, fin_div _ hs.ne', mp.ipow_fin, fin_mul,
      mp.gammaincReg_fin hn le_rfl (show 0 ≤ nu * ((x - loc) / s) ^ 2 by positivity), F, nakD.F_pos hz, gammaD.P]
theorem sf_eval (hn : 0 < nu) (hs : 0 < s) (x : ℝ) : sf (fin x) (fin nu) (fin loc) (fin s) = .ok (fin (1 - F nu ((x - loc) / s))) := by
  rcases le_or_gt x loc with h | h
  · simp [sf, validate_ok hn hs, h, F, nakD.F_nonpos ((affine_le_zero hs).2 h)]
  · have hz : 0 < (x - loc) / s := (affine_gt_zero hs).2 h
    have hz2 : 0 ≤ nu * ((x - loc) / s) ^ 2 := by positivity
    simp only [sf, validate_ok hn hs, ok_bind, zero_def, fin_le, h.not_ge, if_false, fin_sub, fin_div _ hs.ne', mp.ipow_fin, fin_mul,
      mp.gammaincReg_pinf hn hz2, F, nakD.F_pos hz, gammaD.gammaTail_eq hn hz2]

theorem f_pos (hn : 0 < nu) (hs : 0 < s) {x : ℝ} (h : loc < x) : 0 < f nu ((x - loc) / s) / s :=
  div_pos (nakD.f_pos hn hn ((affine_gt_zero hs).2 h)) hs
theorem f_nonneg (hn : 0 < nu) (x : ℝ) : 0 ≤ f nu x := nakD.f_nonneg hn hn x
theorem f_zero (_ : 0 < nu) (hs : 0 < s) : ∀ x, x ∉ Ioi loc → f nu ((x - loc) / s) / s = 0 := fun x hx => by
  rw [f, nakD.f_nonpos ((affine_le_zero hs).2 (not_lt.1 hx)), zero_div]

theorem pdf_eval (hn : 0 < nu) (hs : 0 < s) (x : ℝ) : pdf (fin x) (fin nu) (fin loc) (fin s) = .ok (fin (f nu ((x - loc) / s) / s)) := by
  rcases le_or_gt x loc with h | h
  · simp [pdf, validate_ok hn hs, h, f_zero hn hs x (not_lt.2 h)]
  · have hz : 0 < (x - loc) / s := (affine_gt_zero hs).2 h
    have hg := gammaD.Gpos hn
    simp only [pdf, validate_ok hn hs, ok_bind, zero_def, fin_le, h.not_ge, if_false, fin_sub, fin_div _ hs.ne', mp.ipow_fin, ofNat_def,
      one_def, fin_mul, neg_fin, mp.power_pos hn, mp.power_pos hz, mp.exp_fin, mp.gamma_pos hn, fin_div _ hg.ne', f, nakD.f_eq hn hz, neg_mul]
theorem logpdf_pos (hn : 0 < nu) (hs : 0 < s) {x : ℝ} (h : loc < x) :
    logpdf (fin x) (fin nu) (fin loc) (fin s) = .ok (fin (Real.log (f nu ((x - loc) / s) / s))) := by
  have hz : 0 < (x - loc) / s := (affine_gt_zero hs).2 h
  rw [f, Real.log_div (nakD.f_pos hn hn hz).ne' hs.ne', nakD.log_f hn hn hz]
  simp only [logpdf, validate_ok hn hs, ok_bind, zero_def, fin_le, h.not_ge, if_false, fin_sub, fin_div _ hs.ne', mp.ipow_fin, ofNat_def,
      one_def, fin_mul, mp.log_pos two_pos, mp.log_pos hn, mp.log_pos hz, mp.log_pos hs, mp.loggamma_pos hn, fin_add, pure_eq_ok]
theorem logpdf_low (hn : 0 < nu) (hs : 0 < s) {x : ℝ} (h : x ≤ loc) : logpdf (fin x) (fin nu) (fin loc) (fin s) = .ok ninf := by
  simp [logpdf, validate_ok hn hs, h]

theorem pdf_returns (hn : 0 < nu) (hs : 0 < s) (x : ℝ) : Spec.Returns (pdf (fin x) (fin nu) (fin loc) (fin s)) := ⟨_, pdf_eval hn hs x⟩
theorem logpdf_returns (hn : 0 < nu) (hs : 0 < s) (x : ℝ) : Spec.Returns (logpdf (fin x) (fin nu) (fin loc) (fin s)) := by
  rcases le_or_gt x loc with h | h
  · exact ⟨_, logpdf_low hn hs h⟩
  · exact ⟨_, logpdf_pos hn hs h⟩

theorem F_Q (hn : 0 < nu) (hs : 0 < s) (p : ℝ) (h0 : 0 < p) (h1 : p < 1) : F nu ((loc + s * Q nu p - loc) / s) = p := by
  rw [add_sub_cancel_left, mul_div_cancel_left₀ _ hs.ne']; exact nakD.F_Q hn hn p h0 h1
theorem F_mem (hn : 0 < nu) (hs : 0 < s) {x : ℝ} (h : loc < x) : 0 < F nu ((x - loc) / s) ∧ F nu ((x - loc) / s) < 1 :=
  nakD.F_mem hn hn ((affine_gt_zero hs).2 h)
theorem F_unique (hn : 0 < nu) (hs : 0 < s) {x : ℝ} (h : loc < x) (y : ℝ) (e : F nu ((y - loc) / s) = F nu ((x - loc) / s)) : y = x := by
  have := nakD.F_unique hn hn ((affine_gt_zero hs).2 h) _ e
  rwa [div_left_inj' hs.ne', sub_left_inj] at this
theorem F_lt_one (hn : 0 < nu) (z : ℝ) : F nu z < 1 := by
  rcases le_or_gt z 0 with h | h
  · rw [F, nakD.F_nonpos h]; exact one_pos
  · exact (nakD.F_mem hn hn h).2

theorem cdf_pinf (hn : 0 < nu) (hs : 0 < s) : cdf pinf (fin nu) (fin loc) (fin s) = .ok (fin 1) := by
  have h := gammaD.gammaTail_eq hn le_rfl
  simp only [gammaD.P_zero, sub_zero] at h
  have h0 : ¬ pinf ≤ fin loc := by simp
  have h1 : pinf - fin loc = pinf := rfl
  simp only [cdf, validate_ok hn hs, ok_bind, zero_def, h0, if_false, h1, chi.ipow_pinf, pinf_div_pos hs, fin_mul_pinf, scaleInf_pos hn,
    mp.gammaincReg_pinf hn le_rfl, h]
theorem sf_pinf (hn : 0 < nu) (hs : 0 < s) : sf pinf (fin nu) (fin loc) (fin s) = .ok (fin 0) := by
  have h0 : ¬ pinf ≤ fin loc := by simp
  have h1 : pinf - fin loc = pinf := rfl
  simp only [sf, validate_ok hn hs, ok_bind, zero_def, h0, if_false, h1, chi.ipow_pinf, pinf_div_pos hs, fin_mul_pinf, scaleInf_pos hn,
    mp.gammaincReg_pinf_pinf hn]

/-! ### Moments -/

theorem hasMV (hn : 0 < nu) (hs : 0 < s) : HasMV (fun x => f nu ((x - loc) / s) / s)
    (loc + s * (Real.Gamma (nu + 1 / 2) / Real.Gamma nu / √nu)) (s ^ 2 * (1 - (Real.Gamma (nu + 1 / 2) / Real.Gamma nu) ^ 2 / nu)) := by
  have := hasMV_of_affine (isDist (loc := loc) hn hs) (F_Q hn hs) (nakD.Y1 hn hn) (nakD.Y2 hn hn)
  rwa [div_self hn.ne', div_pow, Real.sq_sqrt hn.le] at this

theorem gammaprod_half (hn : 0 < nu) : mp.gammaprod (fin (nu + 1 / 2)) (fin nu) = .ok (fin (Real.Gamma (nu + 1 / 2) / Real.Gamma nu)) := by
  rw [mp.gammaprod_pos (by linarith) hn]
theorem mean_eval (hn : 0 < nu) (hs : 0 < s) : mean (fin nu) (fin loc) (fin s) =
    .ok (fin (loc + s * (Real.Gamma (nu + 1 / 2) / Real.Gamma nu / √nu))) := by
  simp only [mean, validate_ok hn hs, ok_bind, gammaprod_half hn, mp.sqrt_nonneg hn.le, fin_div _ (Real.sqrt_pos.2 hn).ne', fin_mul,
    fin_add, pure_eq_ok]
theorem var_eval (hn : 0 < nu) (hs : 0 < s) : var (fin nu) (fin loc) (fin s) =
    .ok (fin (s ^ 2 * (1 - (Real.Gamma (nu + 1 / 2) / Real.Gamma nu) ^ 2 / nu))) := by
  simp only [var, validate_ok hn hs, ok_bind, gammaprod_half hn, mp.ipow_fin, one_def, fin_div _ hn.ne', fin_mul, fin_sub, fin_add, pure_eq_ok]

theorem mode_eval (hn : 1 / 2 ≤ nu) (hs : 0 < s) : mode (fin nu) (fin loc) (fin s) = .ok (fin (loc + s * √((nu - 1 / 2) / nu))) := by
  have h0 : 0 < nu := by linarith
  have e : (nu - 1 / 2) / nu = 1 - 1 / (2 * nu) := by field_simp
  have h1 : 0 ≤ 1 - 1 / (2 * nu) := by rw [← e]; exact div_nonneg (by linarith) h0.le
  simp only [mode, validate_ok h0 hs, ok_bind, one_def, ofNat_def, fin_mul, fin_div _ (show 2 * nu ≠ 0 by positivity), fin_sub,
    mp.sqrt_nonneg h1, fin_add, pure_eq_ok, e]
theorem mode_complex (h0 : 0 < nu) (hn : nu < 1 / 2) (hs : 0 < s) : mode (fin nu) (fin loc) (fin s) = .error .complexResult := by
  have e : (nu - 1 / 2) / nu = 1 - 1 / (2 * nu) := by field_simp
  have h1 : 1 - 1 / (2 * nu) < 0 := by rw [← e]; exact div_neg_of_neg_of_pos (by linarith) h0
  simp only [mode, validate_ok h0 hs, ok_bind, one_def, ofNat_def, fin_mul, fin_div _ (show 2 * nu ≠ 0 by positivity), fin_sub,
    mp.sqrt_neg h1]
  rfl

end Mpsci.nakagami
