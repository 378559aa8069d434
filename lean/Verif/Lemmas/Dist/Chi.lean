import Verif.Model.Dist.Chi
import Verif.Lemmas.NakDist

namespace Mpsci.chi

open Classical Num common Filter Topology Set

variable {k : ℝ}

theorem validate_ok (hk : 0 < k) : validateK (fin k) = .ok (fin k) := by simp [validateK, hk.not_ge]
theorem validate_bad (h : ¬ 0 < k) : validateK (fin k) = .error .valueError := by simp [validateK, not_lt.1 h]

noncomputable def F (k x : ℝ) : ℝ := nakD.F (k / 2) (1 / 2) x
noncomputable def f (k x : ℝ) : ℝ := nakD.f (k / 2) (1 / 2) x

theorem isDist (hk : 0 < k) : IsDist (F k) (f k) := nakD.isDist (half_pos hk) one_half_pos

theorem ipow_pinf : mp.ipow pinf 2 = pinf := by
  simp only [mp.ipow, one_def, fin_mul_pinf, scaleInf_pos one_pos]; rfl

theorem cdf_eval (hk : 0 < k) (x : ℝ) : cdf (fin x) (fin k) = .ok (fin (F k x)) := by
  rcases le_or_gt x 0 with h | h
  · simp [cdf, validate_ok hk, h, F, nakD.F_nonpos h]
  · have hz : 0 ≤ x ^ 2 / 2 := by positivity
    simp only [cdf, validate_ok hk, ok_bind, zero_def, fin_le, h.not_ge, if_false, ofNat_def, fin_div _ two_ne_zero, mp.ipow_fin,
      mp.gammaincReg_fin (half_pos hk) le_rfl hz, F, nakD.F_pos h, gammaD.P, one_div_mul_eq_div]
theorem sf_eval (hk : 0 < k) (x : ℝ) : sf (fin x) (fin k) = .ok (fin (1 - F k x)) := by
  rcases le_or_gt x 0 with h | h
  · simp [sf, validate_ok hk, h, F, nakD.F_nonpos h]
  · have hz : 0 ≤ x ^ 2 / 2 := by positivity
    simp only [sf, validate_ok hk, ok_bind, zero_def, fin_le, h.not_ge, if_false, ofNat_def, fin_div _ two_ne_zero, mp.ipow_fin,
      mp.gammaincReg_pinf (half_pos hk) hz, F, nakD.F_pos h, gammaD.gammaTail_eq (half_pos hk) hz, one_div_mul_eq_div]

theorem logpdf_pos (hk : 0 < k) {x : ℝ} (h : 0 < x) : logpdf (fin x) (fin k) = .ok (fin (Real.log (f k x))) := by
  have e : Real.log (f k x) = (k - 1) * Real.log x - x ^ 2 / 2 - (k / 2 - 1) * Real.log 2 - Real.log (Real.Gamma (k / 2)) := by
    rw [f, nakD.log_f (half_pos hk) one_half_pos h, one_div, Real.log_inv]; ring
  rw [e]
  simp only [logpdf, validate_ok hk, ok_bind, zero_def, one_def, fin_lt, h.le.not_gt, if_false, ofNat_def, fin_div _ two_ne_zero,
    mp.ipow_fin, mp.log_pos h, mp.log_pos two_pos, mp.loggamma_pos (half_pos hk), fin_sub, fin_mul, pure_eq_ok]
theorem logpdf_neg (hk : 0 < k) {x : ℝ} (h : x < 0) : logpdf (fin x) (fin k) = .ok ninf := by
  simp [logpdf, validate_ok hk, h]
theorem logpdf_zero (hk : 0 < k) : logpdf (fin 0) (fin k) = .ok (if 1 < k then ninf else if k = 1 then nan else pinf) := by
  have h0 : mp.log (fin 0) = .ok ninf := mp.log_zero
  simp only [logpdf, validate_ok hk, ok_bind, zero_def, one_def, fin_lt, lt_irrefl, if_false, ofNat_def, fin_div _ two_ne_zero,
    mp.ipow_fin, h0, mp.log_pos two_pos, mp.loggamma_pos (half_pos hk), fin_sub, fin_mul, pure_eq_ok, fin_mul_ninf]
  rcases lt_trichotomy k 1 with h | rfl | h
  · rw [scaleInf_neg (by linarith), if_neg h.not_gt, if_neg h.ne]; rfl
  · simp [scaleInf]
  · rw [scaleInf_pos (by linarith), if_pos h]; rfl

theorem f_pos (hk : 0 < k) {x : ℝ} (h : 0 < x) : 0 < f k x := nakD.f_pos (half_pos hk) one_half_pos h
theorem f_nonneg (hk : 0 < k) (x : ℝ) : 0 ≤ f k x := nakD.f_nonneg (half_pos hk) one_half_pos x
theorem f_nonpos {x : ℝ} (h : x ≤ 0) : f k x = 0 := nakD.f_nonpos h

theorem pdf_eval (hk : 0 < k) (x : ℝ) (h1 : 1 < k ∨ x ≠ 0) : pdf (fin x) (fin k) = .ok (fin (f k x)) := by
  rcases lt_trichotomy x 0 with h | rfl | h
  · simp [pdf, validate_ok hk, h, f_nonpos h.le]
  · have h1 : 1 < k := h1.resolve_right (by simp)
    simp [pdf, validate_ok hk, logpdf_zero hk, h1, f_nonpos, mp.exp]
  · simp only [pdf, validate_ok hk, ok_bind, zero_def, fin_lt, h.le.not_gt, if_false, logpdf_pos hk h, mp.exp_fin, Real.exp_log (f_pos hk h),
      pure_eq_ok]
theorem pdf_zero (hk : 0 < k) (h : k ≤ 1) : pdf (fin 0) (fin k) = .ok (if k = 1 then nan else pinf) := by
  simp only [pdf, validate_ok hk, ok_bind, zero_def, fin_lt, lt_irrefl, if_false, logpdf_zero hk, h.not_gt, pure_eq_ok]
  split_ifs <;> simp [mp.exp]

theorem F_Q (hk : 0 < k) (p : ℝ) (h0 : 0 < p) (h1 : p < 1) : F k (nakD.Q (k / 2) (1 / 2) p) = p :=
  nakD.F_Q (half_pos hk) one_half_pos p h0 h1

theorem cdf_pinf (hk : 0 < k) : cdf pinf (fin k) = .ok (fin 1) := by
  have h := gammaD.gammaTail_eq (half_pos hk) le_rfl
  simp only [gammaD.P_zero, sub_zero] at h
  have h0 : ¬ pinf ≤ fin 0 := by simp
  simp only [cdf, validate_ok hk, ok_bind, zero_def, h0, if_false, ipow_pinf, ofNat_def, pinf_div_pos two_pos, fin_div _ two_ne_zero,
    mp.gammaincReg_pinf (half_pos hk) le_rfl, h]
theorem sf_pinf (hk : 0 < k) : sf pinf (fin k) = .ok (fin 0) := by
  have h0 : ¬ pinf ≤ fin 0 := by simp
  simp only [sf, validate_ok hk, ok_bind, zero_def, h0, if_false, ipow_pinf, ofNat_def, pinf_div_pos two_pos, fin_div _ two_ne_zero,
    mp.gammaincReg_pinf_pinf (half_pos hk)]

/-! ### Moments -/

noncomputable def mu (k : ℝ) : ℝ := √2 * Real.Gamma ((k + 1) / 2) / Real.Gamma (k / 2)

theorem mean_eval (hk : 0 < k) : mean (fin k) = .ok (fin (mu k)) := by
  have hg := gammaD.Gpos (half_pos hk)
  simp only [mean, validate_ok hk, ok_bind, one_def, ofNat_def, mp.sqrt_nonneg zero_le_two, fin_add, fin_div _ two_ne_zero,
    mp.gamma_pos (show 0 < (k + 1) / 2 by positivity), mp.gamma_pos (half_pos hk), fin_mul, fin_div _ hg.ne', mu]

theorem Y1 (hk : 0 < k) : Int01 (nakD.Q (k / 2) (1 / 2)) (mu k) := by
  have h := nakD.Y1 (half_pos hk) one_half_pos
  rwa [show Real.Gamma (k / 2 + 1 / 2) / Real.Gamma (k / 2) / √(1 / 2) = mu k by
    rw [mu, ← add_div, Real.sqrt_div zero_le_one, Real.sqrt_one]; field_simp] at h
theorem Y2 (hk : 0 < k) : Int01 (fun p => nakD.Q (k / 2) (1 / 2) p ^ 2) k := by
  have h := nakD.Y2 (half_pos hk) one_half_pos
  rwa [show k / 2 / (1 / 2) = k by ring] at h
theorem Yn (hk : 0 < k) (n : ℕ) : Int01 (fun p => nakD.Q (k / 2) (1 / 2) p ^ n) (2 ^ ((n:ℝ) / 2) * (Real.Gamma ((n + k) / 2) / Real.Gamma (k / 2))) := by
  have h := nakD.Yn (half_pos hk) one_half_pos n
  rwa [one_div, Real.inv_rpow zero_le_two, Real.rpow_neg zero_le_two, inv_inv, ← add_div, add_comm k, ← one_div] at h

theorem hasMV (hk : 0 < k) : HasMV (f k) (mu k) (k - mu k ^ 2) := by
  have := hasMV_of_affine (a := 0) (b := 1) (isDist hk) (fun p h0 h1 => by simpa using F_Q hk p h0 h1) (Y1 hk) (Y2 hk)
  simpa using this

theorem hasEnt (hk : 0 < k) : HasEnt (f k) (Real.log (Real.Gamma (k / 2)) + (k - Real.log 2 - (k - 1) * psi (k / 2)) / 2) := by
  have h := nakD.hasEnt (half_pos hk) one_half_pos
  rwa [one_div, Real.log_inv, show (2⁻¹ - k / 2) * psi (k / 2) - -Real.log 2 / 2 + k / 2 + Real.log (Real.Gamma (k / 2)) - Real.log 2 =
    Real.log (Real.Gamma (k / 2)) + (k - Real.log 2 - (k - 1) * psi (k / 2)) / 2 by ring, ← one_div] at h

theorem mode_eval (hk : 1 ≤ k) : mode (fin k) = .ok (fin √(k - 1)) := by
  have : 0 ≤ k - 1 := by linarith
  simp only [mode, validate_ok (by linarith : 0 < k), ok_bind, one_def, fin_lt, hk.not_gt, if_false, fin_sub, mp.sqrt_nonneg this]

theorem f_le (hk : 1 < k) (x : ℝ) : f k x ≤ f k √(k - 1) := by
  have h := nakD.f_le (a := k / 2) (c := 1 / 2) (by linarith) one_half_pos x
  rwa [show (k / 2 - 1 / 2) / (1 / 2) = k - 1 by ring] at h
theorem f_anti (h0 : 0 < k) (hk : k ≤ 1) {x y : ℝ} (hx : 0 < x) (hxy : x < y) : f k y < f k x :=
  nakD.f_anti (half_pos h0) (by linarith) one_half_pos hx hxy

end Mpsci.chi
