import Verif.Model.Dist.Chi2
import Verif.Lemmas.Dist.Gamma
import Verif.Lemmas.GammaShape
import Verif.Lemmas.GenericInv

namespace Mpsci.chi2

open Classical Num common Filter Topology Set

variable {k : ℝ}

theorem validate_ok (hk : 0 < k) : validateK (fin k) = .ok (fin k) := by simp [validateK, hk.not_ge]
theorem validate_bad (h : ¬ 0 < k) : validateK (fin k) = .error .valueError := by simp [validateK, not_lt.1 h]

/-- distribution function and density -/
noncomputable def F (k x : ℝ) : ℝ := gammaD.F (k / 2) (x / 2)
noncomputable def f (k x : ℝ) : ℝ := gammaD.f (k / 2) (x / 2) / 2

theorem cdf_eval (hk : 0 < k) (x : ℝ) : cdf (fin x) (fin k) = .ok (fin (F k x)) := by
  rcases le_or_gt x 0 with h | h
  · simp [cdf, validate_ok hk, h, F, gammaD.F_nonpos ((scale_le_zero two_pos).2 h)]
  · have hz : 0 ≤ x / 2 := (half_pos h).le
    simp only [cdf, validate_ok hk, ok_bind, zero_def, fin_le, h.not_ge, if_false, ofNat_def, fin_div _ two_ne_zero,
      mp.gammaincReg_fin (half_pos hk) le_rfl hz, F, gammaD.F_nonneg_arg hz, gammaD.P]
theorem sf_eval (hk : 0 < k) (x : ℝ) : sf (fin x) (fin k) = .ok (fin (1 - F k x)) := by
  rcases le_or_gt x 0 with h | h
  · simp [sf, validate_ok hk, h, F, gammaD.F_nonpos ((scale_le_zero two_pos).2 h)]
  · have hz : 0 ≤ x / 2 := (half_pos h).le
    simp only [sf, validate_ok hk, ok_bind, zero_def, fin_le, h.not_ge, if_false, ofNat_def, fin_div _ two_ne_zero,
      mp.gammaincReg_pinf (half_pos hk) hz, F, gammaD.F_nonneg_arg hz, gammaD.gammaTail_eq (half_pos hk) hz]

theorem pdf_eval (hk : 0 < k) (x : ℝ) (h1 : 2 ≤ k ∨ x ≠ 0) : pdf (fin x) (fin k) = .ok (fin (f k x)) := by
  rcases lt_or_ge x 0 with h | h
  · simp [pdf, validate_ok hk, h, f, gammaD.f_neg ((gamma.scale_lt_zero two_pos).2 h)]
  · have hz : 0 ≤ x / 2 := by positivity
    have hg := gammaD.Gpos (half_pos hk)
    have hp : mp.power (fin (x / 2)) (fin (k / 2 - 1)) = .ok (fin ((x / 2) ^ (k / 2 - 1))) := by
      rcases h.eq_or_lt with rfl | h
      · rcases h1 with h1 | h1
        · exact power_of_nonneg hz (fun _ => by linarith)
        · exact absurd rfl h1
      · exact mp.power_pos (half_pos h) _
    simp only [pdf, validate_ok hk, ok_bind, zero_def, one_def, fin_lt, h.not_gt, if_false, ofNat_def, fin_div _ two_ne_zero,
      neg_fin, mp.exp_fin, fin_sub, hp, fin_mul, mp.gamma_pos (half_pos hk), fin_div _ hg.ne', f, gammaD.f_of_nonneg hz, gammaD.g]
    congr 2
    rw [neg_div]; field_simp
/-- at 0 with `k < 2` -/
theorem pdf_zero (hk : 0 < k) (h : k < 2) : pdf (fin 0) (fin k) = .error .zeroDivision ∨ pdf (fin 0) (fin k) = .ok pinf := by
  have hp : mp.power (fin 0) (fin (k / 2 - 1)) = .error .zeroDivision ∨ mp.power (fin 0) (fin (k / 2 - 1)) = .ok pinf := by
    simp only [mp.power, lt_irrefl, if_false, if_true, show ¬ 0 < k / 2 - 1 by linarith, (by linarith : k / 2 - 1 ≠ 0)]
    split_ifs <;> simp
  have hg := gammaD.Gpos (half_pos hk)
  rcases hp with hp | hp
  · left
    simp only [pdf, validate_ok hk, ok_bind, zero_def, one_def, fin_lt, lt_irrefl, if_false, ofNat_def, fin_div _ two_ne_zero,
      neg_fin, zero_div, fin_sub, hp]
    rfl
  · right
    simp only [pdf, validate_ok hk, ok_bind, zero_def, one_def, fin_lt, lt_irrefl, if_false, ofNat_def, fin_div _ two_ne_zero,
      neg_fin, zero_div, fin_sub, hp, mp.exp_fin, fin_mul_pinf, scaleInf_pos (Real.exp_pos _), pinf_div_pos two_pos,
      mp.gamma_pos (half_pos hk), pinf_div_pos hg]

theorem f_pos (hk : 0 < k) {x : ℝ} (h : 0 < x) : 0 < f k x := half_pos (gamma.f_pos (half_pos hk) (half_pos h))
theorem f_nonneg (hk : 0 < k) (x : ℝ) : 0 ≤ f k x := div_nonneg (gamma.f_nonneg (half_pos hk) _) zero_le_two
theorem f_zero {x : ℝ} (hx : x ∉ Ici (0:ℝ)) : f k x = 0 := by
  rw [f, gammaD.f_neg ((gamma.scale_lt_zero two_pos).2 (not_le.1 hx)), zero_div]

theorem logpdf_pos (hk : 0 < k) {x : ℝ} (h : 0 < x) : logpdf (fin x) (fin k) = .ok (fin (Real.log (f k x))) := by
  have hz : 0 < x / 2 := half_pos h
  have hg := gammaD.Gpos (half_pos hk)
  have e : Real.log (f k x) = -x / 2 + (k / 2 - 1) * Real.log (x / 2) - Real.log 2 - Real.log (Real.Gamma (k / 2)) := by
    rw [f, gammaD.f_of_nonneg hz.le, gammaD.g, Real.log_div (by positivity) two_ne_zero, Real.log_div (by positivity) hg.ne',
      Real.log_mul (by positivity) (by positivity), Real.log_exp, Real.log_rpow hz]
    ring
  rw [e]
  simp only [logpdf, validate_ok hk, ok_bind, zero_def, one_def, fin_lt, h.le.not_gt, if_false, ofNat_def, fin_div _ two_ne_zero,
    mp.loggamma_pos (half_pos hk), mp.log_pos two_pos, mp.log_pos hz, neg_fin, fin_mul, fin_sub, fin_add, pure_eq_ok]
theorem logpdf_neg (hk : 0 < k) {x : ℝ} (h : x < 0) : logpdf (fin x) (fin k) = .ok ninf := by simp [logpdf, validate_ok hk, h]
theorem logpdf_zero (hk : 0 < k) : logpdf (fin 0) (fin k) = .ok (if 2 < k then ninf else if k = 2 then nan else pinf) := by
  have h0 : mp.log (fin 0) = .ok ninf := mp.log_zero
  simp only [logpdf, validate_ok hk, ok_bind, zero_def, one_def, fin_lt, lt_irrefl, if_false, ofNat_def, fin_div _ two_ne_zero,
    zero_div, neg_fin, h0, mp.loggamma_pos (half_pos hk), mp.log_pos two_pos, fin_sub, pure_eq_ok, fin_mul_ninf]
  rcases lt_trichotomy k 2 with h | rfl | h
  · rw [scaleInf_neg (by linarith), if_neg h.not_gt, if_neg h.ne]; rfl
  · simp [scaleInf]
  · rw [scaleInf_pos (by linarith), if_pos h]; rfl

theorem isDist (hk : 0 < k) : IsDist (F k) (f k) := gamma.isDist (half_pos hk) two_pos

theorem F_mem (hk : 0 < k) {x : ℝ} (hx : 0 < x) : 0 < F k x ∧ F k x < 1 := gamma.F_mem (half_pos hk) two_pos hx
theorem F_Q (hk : 0 < k) (p : ℝ) (h0 : 0 < p) (h1 : p < 1) : F k (2 * gammaD.Q (k / 2) p) = p := gamma.F_Q (half_pos hk) two_pos p h0 h1

theorem F_pos {x : ℝ} (hx : 0 < x) : F k x = gammaD.P (k / 2) (x / 2) := gammaD.F_pos (half_pos hx)

theorem F_strictMono (hk : 0 < k) : StrictMonoOn (F k) (Ioi 0) := fun x hx y hy h => by
  rw [F_pos hx, F_pos hy]
  exact gammaD.P_strictMonoOn (half_pos hk) (mem_Ici.2 (half_pos (mem_Ioi.1 hx)).le) (mem_Ici.2 (half_pos (mem_Ioi.1 hy)).le) (by linarith)
theorem F_cont (hk : 0 < k) : ContinuousOn (F k) (Ioi 0) := (isDist hk).cont.continuousOn

theorem F_strictAnti_k {x : ℝ} (hx : 0 < x) : StrictAntiOn (fun k => F k x) (Ioi 0) := fun k hk k' hk' h => by
  simp only [F_pos hx]
  exact gammaD.P_strictAnti (half_pos hx) (mem_Ioi.2 (half_pos (mem_Ioi.1 hk))) (mem_Ioi.2 (half_pos (mem_Ioi.1 hk'))) (by linarith)
theorem F_cont_k {x : ℝ} (hx : 0 < x) : ContinuousOn (fun k => F k x) (Ioi 0) := by
  simp only [F_pos hx]
  exact (gammaD.P_cont_k (half_pos hx)).comp (by fun_prop) fun k hk => mem_Ioi.2 (half_pos (mem_Ioi.1 hk))
theorem exists_k {x p : ℝ} (hx : 0 < x) (h0 : 0 < p) (h1 : p < 1) : ∃ k, 0 < k ∧ F k x = p := by
  obtain ⟨k, hk, e⟩ := gammaD.exists_shape (half_pos hx) h0 h1
  exact ⟨2 * k, by positivity, by rw [F_pos hx, mul_div_cancel_left₀ _ two_ne_zero, e]⟩

theorem cdf_pinf (hk : 0 < k) : cdf pinf (fin k) = .ok (fin 1) := by
  have h := gammaD.gammaTail_eq (half_pos hk) le_rfl
  simp only [gammaD.P_zero, sub_zero] at h
  have h0 : ¬ pinf ≤ fin 0 := by simp
  simp only [cdf, validate_ok hk, ok_bind, zero_def, h0, if_false, ofNat_def, fin_div _ two_ne_zero, pinf_div_pos two_pos,
    mp.gammaincReg_pinf (half_pos hk) le_rfl, h]
theorem sf_pinf (hk : 0 < k) : sf pinf (fin k) = .ok (fin 0) := by
  have h0 : ¬ pinf ≤ fin 0 := by simp
  simp only [sf, validate_ok hk, ok_bind, zero_def, h0, if_false, ofNat_def, fin_div _ two_ne_zero, pinf_div_pos two_pos,
    mp.gammaincReg_pinf_pinf (half_pos hk)]

theorem hasMV (hk : 0 < k) : HasMV (f k) k (2 * k) := by
  have := gamma.hasMV (half_pos hk) two_pos
  rwa [div_mul_cancel₀ _ two_ne_zero, show k / 2 * 2 ^ 2 = 2 * k by ring] at this

theorem mode_eval (hk : 2 ≤ k) : mode (fin k) = .ok (fin (k - 2)) := by
  have h : ¬ 0 > fin k - 2 := by rw [gt_iff, zero_def, ofNat_def, fin_sub, fin_lt]; linarith
  simp only [mode, validate_ok (by linarith : 0 < k), ok_bind, h, if_false]; rfl
theorem mode_eval0 (hk : 0 < k) (h : k < 2) : mode (fin k) = .ok 0 := by
  have h : 0 > fin k - 2 := by rw [gt_iff, zero_def, ofNat_def, fin_sub, fin_lt]; linarith
  simp only [mode, validate_ok hk, ok_bind, h, if_true]; rfl

end Mpsci.chi2
