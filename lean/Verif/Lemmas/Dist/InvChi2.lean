import Verif.Model.Dist.InvChi2
import Verif.Lemmas.Dist.InvGamma

namespace Mpsci.invchi2

open Classical Num common Filter Topology Set invgammaD

variable {nu : ℝ}

theorem validate_ok (hn : 0 < nu) : validateNu (fin nu) = .ok (fin nu) := by simp [validateNu, hn.not_ge]
theorem validate_bad (hn : ¬ 0 < nu) : validateNu (fin nu) = .error .valueError := by simp [validateNu, not_lt.1 hn]

/-- density -/
noncomputable def g (nu x : ℝ) : ℝ := f (nu / 2) ((x - 0) / (1 / 2)) / (1 / 2)

theorem half (hn : 0 < nu) : 0 < nu / 2 := by positivity
theorem arg (x : ℝ) : (x - 0) / (1 / 2) = 2 * x := by ring
theorem arg' (x : ℝ) : 1 / ((x - 0) / (1 / 2)) = 1 / (2 * x) := by rw [arg]

theorem isDist (hn : 0 < nu) : IsDist (fun x => F (nu / 2) ((x - 0) / (1 / 2))) (g nu) := invgamma.isDist (half hn) one_half_pos

theorem cdf_eval (hn : 0 < nu) (x : ℝ) : cdf (fin x) (fin nu) = .ok (fin (F (nu / 2) ((x - 0) / (1 / 2)))) := by
  rw [← invgamma.cdf_eval (half hn) one_half_pos x]
  rcases le_or_gt x 0 with h | h
  · simp only [cdf, validate_ok hn, invgamma.cdf, invgamma.validate_ok (half hn) one_half_pos, ok_bind, zero_def, fin_le, h, if_true]
  · have h2 : 2 * x ≠ 0 := by positivity
    have h3 : 2 * x ≠ 0 := h2
    simp only [cdf, validate_ok hn, invgamma.cdf, invgamma.validate_ok (half hn) one_half_pos, ok_bind, zero_def, one_def, ofNat_def, fin_le,
      h.not_ge, if_false, fin_mul, fin_div _ h2, fin_div _ two_ne_zero, fin_sub, fin_div _ one_half_pos.ne', arg]
theorem sf_eval (hn : 0 < nu) (x : ℝ) : sf (fin x) (fin nu) = .ok (fin (1 - F (nu / 2) ((x - 0) / (1 / 2)))) := by
  rw [← invgamma.sf_eval (half hn) one_half_pos x]
  rcases le_or_gt x 0 with h | h
  · simp only [sf, validate_ok hn, invgamma.sf, invgamma.validate_ok (half hn) one_half_pos, ok_bind, zero_def, fin_le, h, if_true]
  · have h2 : 2 * x ≠ 0 := by positivity
    simp only [sf, validate_ok hn, invgamma.sf, invgamma.validate_ok (half hn) one_half_pos, ok_bind, zero_def, one_def, ofNat_def, fin_le,
      h.not_ge, if_false, fin_mul, fin_div _ h2, fin_div _ two_ne_zero, fin_sub, fin_div _ one_half_pos.ne', arg]

theorem g_pos (hn : 0 < nu) {x : ℝ} (h : 0 < x) : 0 < g nu x := invgamma.f_pos (half hn) one_half_pos h
theorem g_zero (hn : 0 < nu) : ∀ x, x ∉ Ioi (0:ℝ) → g nu x = 0 := invgamma.f_zero (half hn) one_half_pos

theorem logpdf_pos (hn : 0 < nu) {x : ℝ} (h : 0 < x) : logpdf (fin x) (fin nu) = .ok (fin (Real.log (g nu x))) := by
  have h2 : 2 * x ≠ 0 := by positivity
  have h3 : 0 < 2 * x := by positivity
  have hl : Real.log (g nu x) = -(nu / 2) * Real.log 2 + (-(nu / 2) - 1) * Real.log x - 1 / (2 * x) - Real.log (Real.Gamma (nu / 2)) := by
    rw [g, arg, Real.log_div (invgammaD.f_pos (half hn) h3).ne' (by norm_num), log_f (half hn) h3, Real.log_mul two_ne_zero h.ne',
      Real.log_div one_ne_zero two_ne_zero, Real.log_one]; ring
  simp only [logpdf, validate_ok hn, ok_bind, zero_def, one_def, ofNat_def, fin_le, h.not_ge, if_false, fin_div _ two_ne_zero, neg_fin,
    mp.log_pos two_pos, mp.log_pos h, fin_mul, fin_div _ h2, mp.loggamma_pos (half hn), fin_sub, fin_add, pure_eq_ok, hl]
theorem logpdf_low (hn : 0 < nu) {x : ℝ} (h : x ≤ 0) : logpdf (fin x) (fin nu) = .ok ninf := by
  simp [logpdf, validate_ok hn, h]
theorem pdf_eval (hn : 0 < nu) (x : ℝ) : pdf (fin x) (fin nu) = .ok (fin (g nu x)) := by
  rcases le_or_gt x 0 with h | h
  · simp [pdf, validate_ok hn, h, g_zero hn x (not_lt.2 h)]
  · have h2 : 2 * x ≠ 0 := by positivity
    have h3 : 0 < 2 * x := by positivity
    have hl : Real.log (g nu x) = -(nu / 2) * Real.log 2 + (-(nu / 2) - 1) * Real.log x - 1 / (2 * x) - Real.log (Real.Gamma (nu / 2)) := by
      rw [g, arg, Real.log_div (invgammaD.f_pos (half hn) h3).ne' (by norm_num), log_f (half hn) h3, Real.log_mul two_ne_zero h.ne',
        Real.log_div one_ne_zero two_ne_zero, Real.log_one]; ring
    have hG := gammaD.Gpos (half hn)
    have e : g nu x = (2:ℝ) ^ (-(nu / 2)) * x ^ (-(nu / 2) - 1) * Real.exp (-1 / (2 * x)) / Real.Gamma (nu / 2) := by
      rw [← Real.exp_log (g_pos hn h), hl, Real.exp_sub, Real.exp_log hG, Real.rpow_def_of_pos two_pos, Real.rpow_def_of_pos h,
        ← Real.exp_add, ← Real.exp_add]
      congr 2; ring
    simp only [pdf, validate_ok hn, ok_bind, zero_def, one_def, ofNat_def, fin_le, h.not_ge, if_false, fin_div _ two_ne_zero, neg_fin,
      fin_sub, mp.power_pos two_pos, mp.power_pos h, fin_mul, fin_div _ h2, mp.exp_fin, mp.gamma_pos (half hn), fin_div _ hG.ne', e]

theorem mean_eval (hn : 2 < nu) : mean (fin nu) = .ok (fin (0 + 1 / 2 * (1 / (nu / 2 - 1)))) := by
  have h : nu - 2 ≠ 0 := by linarith
  have h' : nu / 2 - 1 ≠ 0 := by linarith
  simp only [mean, validate_ok (by linarith : 0 < nu), ok_bind, one_def, ofNat_def, fin_lt, hn, if_true, fin_sub, fin_div _ h]
  congr 2; field_simp; ring
theorem var_eval (hn : 4 < nu) : var (fin nu) =
    .ok (fin ((1 / 2) ^ 2 * (1 / ((nu / 2 - 1) * (nu / 2 - 2)) - (1 / (nu / 2 - 1)) ^ 2))) := by
  have h : nu - 2 ≠ 0 := by linarith
  have h4 : nu - 4 ≠ 0 := by linarith
  have e1 : nu / 2 - 1 = (nu - 2) / 2 := by ring
  have e2 : nu / 2 - 2 = (nu - 4) / 2 := by ring
  simp only [var, validate_ok (by linarith : 0 < nu), ok_bind, ofNat_def, fin_lt, hn, if_true, fin_sub, mp.ipow_fin,
    fin_div _ (pow_ne_zero 2 h), fin_div _ h4, e1, e2]
  congr 2; field_simp; ring
theorem mode_eval (hn : 0 < nu) : mode (fin nu) = .ok (fin (0 + 1 / 2 * (1 / (nu / 2 + 1)))) := by
  have h : nu + 2 ≠ 0 := by positivity
  simp only [mode, validate_ok hn, ok_bind, one_def, ofNat_def, fin_add, fin_div _ h]
  congr 2; field_simp; ring

theorem F_Q (hn : 0 < nu) (p : ℝ) (h0 : 0 < p) (h1 : p < 1) :
    F (nu / 2) ((0 + 1 / 2 * Q (nu / 2) p - 0) / (1 / 2)) = p := invgamma.F_Q (half hn) one_half_pos p h0 h1

end Mpsci.invchi2
