import Verif.Model.Dist.RelBreitwigner
import Verif.Lemmas.BreitWignerDist
import Verif.Lemmas.Fun.Powm1
import Verif.Lemmas.Common

namespace Mpsci.rel_breitwigner

open Classical Num common Filter Topology Set Spec
open bwD (F f G h b mu)

variable {r s : ℝ}

theorem validate_ok (hr : 0 < r) (hs : 0 < s) : validateParams (fin r) (fin s) = .ok (fin r, fin s) := by
  simp [validateParams, hr.not_ge, hs.not_ge]
theorem validate_bad (h : ¬ (0 < r ∧ 0 < s)) : validateParams (fin r) (fin s) = .error .valueError := by
  by_cases hr : 0 < r
  · have : s ≤ 0 := not_lt.1 fun hs => h ⟨hr, hs⟩
    simp [validateParams, hr.not_ge, this]
  · simp [validateParams, not_lt.1 hr]

theorem k_eval (hr : 0 < r) : k (fin r) = .ok (fin (bwD.k r)) := by
  have h1 : 0 ≤ r ^ 2 + 1 := by positivity
  have h2 : 0 < r ^ 2 + r * √(r ^ 2 + 1) := by positivity
  simp only [k, mp.ipow_fin, one_def, fin_add, mp.sqrt_nonneg h1, ok_bind, ofNat_def, mp.sqrt_nonneg zero_le_two, fin_mul, mp.sqrt_nonneg h2.le,
    fin_div _ (Real.sqrt_pos.2 h2).ne', mp.pi_def, fin_div _ Real.pi_ne_zero, bwD.k]

theorem pdf_eval (hr : 0 < r) (hs : 0 < s) (x : ℝ) : pdf (fin x) (fin r) (fin s) = .ok (fin (f r (x / s) / s)) := by
  by_cases h0 : x < 0
  · simp [pdf, validate_ok hr hs, h0, bwD.f_neg ((scale_lt_zero hs).2 h0)]
  · have hz : 0 ≤ x / s := div_nonneg (not_lt.1 h0) hs.le
    simp only [pdf, validate_ok hr hs, ok_bind, zero_def, fin_lt, h0, if_false, k_eval hr, fin_div _ hs.ne', mp.ipow_fin, fin_sub, fin_add,
      fin_div _ (bwD.den_pos hr (x / s)).ne', bwD.f_eq hz, h]
theorem f_pos (hr : 0 < r) (hs : 0 < s) {x : ℝ} (hx : x ∈ Ici (0:ℝ)) : 0 < f r (x / s) / s := by
  rw [bwD.f_eq (div_nonneg hx hs.le)]; exact div_pos (bwD.h_pos hr _) hs
theorem f_zero (hs : 0 < s) (x : ℝ) (hx : x ∉ Ici (0:ℝ)) : f r (x / s) / s = 0 := by
  rw [bwD.f_neg ((scale_lt_zero hs).2 (not_le.1 hx)), zero_div]
theorem logpdf_in (hr : 0 < r) (hs : 0 < s) {x : ℝ} (hx : x ∈ Ici (0:ℝ)) :
    logpdf (fin x) (fin r) (fin s) = .ok (fin (Real.log (f r (x / s) / s))) := by
  have hx : 0 ≤ x := hx
  have hz : 0 ≤ x / s := div_nonneg hx hs.le
  have hk := bwD.k_pos hr
  have h1 : -1 < ((x / s + r) * (x / s - r) / r) ^ 2 := lt_of_lt_of_le (by norm_num) (sq_nonneg _)
  have e : f r (x / s) / s = bwD.k r / r ^ 2 / s / (1 + ((x / s + r) * (x / s - r) / r) ^ 2) := by
    rw [bwD.f_eq hz, h]
    have := (bwD.den_pos hr (x / s)).ne'
    have h2 : 1 + ((x / s + r) * (x / s - r) / r) ^ 2 = (((x / s) ^ 2 - r ^ 2) ^ 2 + r ^ 2) / r ^ 2 := by field_simp; ring
    rw [h2]
    generalize ((x / s) ^ 2 - r ^ 2) ^ 2 + r ^ 2 = D at *
    field_simp
  rw [e, Real.log_div (by positivity) (by positivity), Real.log_div (by positivity) hs.ne', Real.log_div hk.ne' (by positivity), Real.log_pow]
  simp only [logpdf, validate_ok hr hs, ok_bind, zero_def, fin_lt, hx.not_gt, if_false, k_eval hr, mp.log_pos hk, fin_div _ hs.ne', ofNat_def,
    mp.log_pos hr, mp.log_pos hs, fin_add, fin_sub, fin_mul, fin_div _ hr.ne', mp.ipow_fin, mp.log1p_pos h1, pure_eq_ok]
  norm_num
theorem logpdf_out (hr : 0 < r) (hs : 0 < s) {x : ℝ} (hx : x ∉ Ici (0:ℝ)) : logpdf (fin x) (fin r) (fin s) = .ok ninf := by
  have hx : x < 0 := not_le.1 hx
  simp [logpdf, validate_ok hr hs, hx]
theorem logpdf_returns (hr : 0 < r) (hs : 0 < s) (x : ℝ) : Returns (logpdf (fin x) (fin r) (fin s)) := by
  by_cases hx : x ∈ Ici (0:ℝ)
  · exact ⟨_, logpdf_in hr hs hx⟩
  · exact ⟨_, logpdf_out hr hs hx⟩

theorem cdf_eval (hr : 0 < r) (hs : 0 < s) (x : ℝ) : cdf (fin x) (fin r) (fin s) = .ok (fin (F r (x / s))) := by
  by_cases h0 : x < 0
  · simp [cdf, validate_ok hr hs, h0, bwD.F_nonpos ((scale_le_zero hs).2 h0.le)]
  · have hz : 0 ≤ x / s := div_nonneg (not_lt.1 h0) hs.le
    have e : atanImag (fin (x / s)) (fin r) = .ok (fin (bwD.B r (x / s) / bwD.alpha r).im) := rfl
    simp only [cdf, validate_ok hr hs, ok_bind, zero_def, fin_lt, h0, if_false, fin_eq_pinf, fin_eq_ninf, or_self, k_eval hr, fin_div _ hs.ne', e,
      fin_mul, fin_div _ hr.ne', bwD.F_eq hz, G]
theorem sf_eval (hr : 0 < r) (hs : 0 < s) (x : ℝ) : sf (fin x) (fin r) (fin s) = .ok (fin (1 - F r (x / s))) := by
  simp only [sf, cdf_eval hr hs, ok_bind, one_def, fin_sub, pure_eq_ok]
theorem cdf_pinf (hr : 0 < r) (hs : 0 < s) : cdf pinf (fin r) (fin s) = .ok (fin 1) := by
  simp [cdf, validate_ok hr hs]
theorem sf_pinf (hr : 0 < r) (hs : 0 < s) : sf pinf (fin r) (fin s) = .ok (fin 0) := by
  simp [sf, cdf_pinf hr hs]

theorem mean_eval (hr : 0 < r) (hs : 0 < s) : mean (fin r) (fin s) = .ok (fin (s * mu r)) := by
  simp only [mean, validate_ok hr hs, ok_bind, k_eval hr, ofNat_def, fin_mul, fin_div _ (mul_pos two_pos hr).ne', mp.pi_def, fin_div _ two_ne_zero,
    mp.atan_fin, fin_add, pure_eq_ok, mu]
  congr 2; ring
theorem moment2 (hr : 0 < r) (hs : 0 < s) : noncentralMoment 2 (fin r) (fin s) = .ok (fin (s ^ 2 * b r)) := by
  obtain ⟨h1, h2, h3, h4⟩ := bwD.alpha_spec hr
  have h5 := bwD.normSq_alpha hr
  have hk := bwD.k_eq hr
  have hq : 0 < √(2:ℝ) := Real.sqrt_pos.2 two_pos
  have hq2 : √(2:ℝ) * √2 = 2 := Real.mul_self_sqrt zero_le_two
  have hb := bwD.b_pos hr
  have hp : mp.power (fin r) (fin (-2)) = .ok (fin (r ^ (-2 : ℝ))) := mp.power_pos hr _
  have hp1 : -1 < r ^ (-2 : ℝ) := lt_trans (by norm_num) (Real.rpow_pos_of_pos hr _)
  have e1 : (1 + r ^ (-2 : ℝ)) ^ (1 / 2 : ℝ) - 1 = 2 * (bwD.alpha r).re ^ 2 / r ^ 2 := by
    have e2 : 1 + r ^ (-2 : ℝ) = (r ^ 2 + 1) / r ^ 2 := by
      rw [Real.rpow_neg hr.le, Real.rpow_two]; field_simp
    have e3 : 2 * (bwD.alpha r).re ^ 2 = b r - r ^ 2 := by linarith
    rw [e2, ← Real.sqrt_eq_rpow, Real.sqrt_div (by positivity), Real.sqrt_sq hr.le, e3, b]
    field_simp
  have e4 : √(2 * (bwD.alpha r).re ^ 2 / r ^ 2) = √2 * (bwD.alpha r).re / r := by
    rw [Real.sqrt_div (by positivity), Real.sqrt_sq hr.le, Real.sqrt_mul zero_le_two, Real.sqrt_sq h1.le]
  have e5 : r * (√2 * (bwD.alpha r).re / r) ≠ 0 := by positivity
  have hv : validateMomentN 2 = .ok 2 := by simp [validateMomentN]
  simp only [noncentralMoment, hv, validate_ok hr hs, ok_bind, show ¬ (2 = 0) by norm_num, show ¬ (2 = 1) by norm_num, if_false, if_true, mp.pi_def, ofNat_def,
    mp.sqrt_nonneg zero_le_two, fin_mul, fin_div _ (mul_pos two_pos hq).ne', k_eval hr, one_def, fin_div _ two_ne_zero, hp, fun_.pow1pm1_eval _ hp1, e1,
    mp.sqrt_nonneg (show 0 ≤ 2 * (bwD.alpha r).re ^ 2 / r ^ 2 by positivity), e4, fin_div _ e5, mp.ipow_fin]
  congr 2
  rw [div_eq_iff e5]
  have e6 : r * (√2 * (bwD.alpha r).re / r) = √2 * (bwD.alpha r).re := by field_simp
  rw [e6, show s ^ 2 * (Real.pi / (2 * √2)) * bwD.k r = s ^ 2 * (Real.pi * bwD.k r) / (2 * √2) by ring, div_eq_iff (by positivity)]
  have e7 : Real.pi * bwD.k r = 4 * b r * (bwD.alpha r).re := by
    have e8 : (Real.pi * bwD.k r - 4 * b r * (bwD.alpha r).re) * (bwD.alpha r).im = 0 := by
      linear_combination -hk - 2 * b r * h4
    rcases mul_eq_zero.1 e8 with h | h
    · linarith
    · exact absurd h h2.ne
  rw [e7]
  linear_combination (-2 * s ^ 2 * b r * (bwD.alpha r).re) * hq2
theorem var_eval (hr : 0 < r) (hs : 0 < s) : var (fin r) (fin s) = .ok (fin (s ^ 2 * (b r - mu r ^ 2))) := by
  simp only [var, validate_ok hr hs, ok_bind, moment2 hr hs, mean_eval hr hs, mp.ipow_fin, fin_sub, pure_eq_ok]
  congr 2; ring
theorem mode_eval (hr : 0 < r) (hs : 0 < s) : mode (fin r) (fin s) = .ok (fin (r * s)) := by
  simp [mode, validate_ok hr hs]

end Mpsci.rel_breitwigner
