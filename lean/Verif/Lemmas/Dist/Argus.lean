import Verif.Model.Dist.Argus
import Verif.Lemmas.ArgusDist
import Verif.Lemmas.Common

namespace Mpsci.argus

open Classical Num common Filter Topology Set Spec argD

variable {c s : ℝ}

theorem validate_ok (hc : 0 ≤ c) (hs : 0 < s) : validateParams (fin c) (fin s) = .ok (fin c, fin s) := by
  simp [validateParams, hc.not_gt, hs.not_ge]
theorem validate_bad (h : ¬ (0 ≤ c ∧ 0 < s)) : validateParams (fin c) (fin s) = .error .valueError := by
  by_cases hc : c < 0
  · simp [validateParams, hc]
  · have : s ≤ 0 := not_lt.1 fun hs => h ⟨not_lt.1 hc, hs⟩
    simp [validateParams, hc, this]

theorem psi_eval (c : ℝ) : psi (fin c) = .ok (fin (Psi c)) := by
  simp only [psi, mp.npdf_std, ok_bind, mp.ncdf_fin, fin_mul, fin_sub, pure_eq_ok, Psi]

theorem sq_eq (z : ℝ) : (1 + z) * (1 - z) = 1 - z ^ 2 := by ring
theorem sq_eq' (z : ℝ) : (1 - z) * (1 + z) = 1 - z ^ 2 := by ring

theorem mem_Icc_div (hs : 0 < s) {x : ℝ} (h0 : ¬ x < 0) (h1 : ¬ x > s) : x / s ∈ Icc (0:ℝ) 1 :=
  ⟨div_nonneg (not_lt.1 h0) hs.le, (div_le_one hs).2 (not_lt.1 h1)⟩

theorem H_zero_eq {z : ℝ} (hz : z ∈ Icc (0:ℝ) 1) : (1 - z ^ 2) ^ (3 / 2 : ℝ) = H 0 (w z) := by
  have h : 0 ≤ 1 - z ^ 2 := by nlinarith [hz.1, hz.2]
  rw [H, if_pos rfl, w, Real.sqrt_eq_rpow, ← Real.rpow_mul_natCast h]
  norm_num

theorem sf_eval (hc : 0 ≤ c) (hs : 0 < s) (x : ℝ) : sf (fin x) (fin c) (fin s) = .ok (fin (1 - F c (x / s))) := by
  by_cases h0 : x < 0
  · simp [sf, validate_ok hc hs, h0, F, (scale_le_zero hs).2 h0.le]
  by_cases h1 : s < x
  · have h2 : ¬ x / s ≤ 0 := not_le.2 (div_pos (hs.trans h1) hs)
    have h3 : 1 ≤ x / s := (one_le_div hs).2 h1.le
    simp [sf, validate_ok hc hs, h0, h1, F, h2, h3]
  have hz := mem_Icc_div hs h0 h1
  have hn : 0 ≤ 1 - (x / s) ^ 2 := by nlinarith [hz.1, hz.2]
  rw [F_eq hc hz, sub_sub_cancel]
  by_cases h : c = 0
  · subst h
    simp only [sf, validate_ok hc hs, ok_bind, zero_def, one_def, fin_lt, h0, gt_iff, h1, if_false, fin_div _ hs.ne', fin_eq, if_true, fin_add,
      fin_sub, fin_mul, sq_eq, power_of_nonneg hn (fun _ => show (0:ℝ) ≤ 3 / 2 by norm_num), H_zero_eq hz]
  · have hP := (Psi_pos (lt_of_le_of_ne hc (Ne.symm h))).ne'
    simp only [sf, validate_ok hc hs, ok_bind, zero_def, one_def, fin_lt, h0, gt_iff, h1, if_false, fin_div _ hs.ne', fin_eq, h, fin_add,
      fin_sub, fin_mul, sq_eq', mp.sqrt_nonneg hn, psi_eval, fin_div _ hP, H, w]

theorem cdf_eval (hc : 0 ≤ c) (hs : 0 < s) (x : ℝ) : cdf (fin x) (fin c) (fin s) = .ok (fin (F c (x / s))) := by
  by_cases h0 : x < 0
  · simp [cdf, validate_ok hc hs, h0, F, (scale_le_zero hs).2 h0.le]
  by_cases h1 : s < x
  · have h2 : ¬ x / s ≤ 0 := not_le.2 (div_pos (hs.trans h1) hs)
    have h3 : 1 ≤ x / s := (one_le_div hs).2 h1.le
    simp [cdf, validate_ok hc hs, h0, h1, F, h2, h3]
  have hz := mem_Icc_div hs h0 h1
  have hn : 0 ≤ 1 - (x / s) ^ 2 := by nlinarith [hz.1, hz.2]
  rw [F_eq hc hz]
  by_cases h : c = 0
  · subst h
    simp only [cdf, validate_ok hc hs, ok_bind, zero_def, one_def, fin_lt, h0, gt_iff, h1, if_false, fin_div _ hs.ne', fin_eq, if_true, fin_add,
      fin_sub, fin_mul, sq_eq, powm1_of_nonneg hn (show (0:ℝ) < 3 / 2 by norm_num), H_zero_eq hz, neg_fin, pure_eq_ok, neg_sub]
  · have hP := (Psi_pos (lt_of_le_of_ne hc (Ne.symm h))).ne'
    simp only [cdf, validate_ok hc hs, ok_bind, zero_def, one_def, fin_lt, h0, gt_iff, h1, if_false, fin_div _ hs.ne', fin_eq, h, fin_add,
      fin_sub, fin_mul, sq_eq', mp.sqrt_nonneg hn, psi_eval, fin_div _ hP, H, w, pure_eq_ok]

theorem mem_Ioo_div (hs : 0 < s) {x : ℝ} : x / s ∈ Ioo (0:ℝ) 1 ↔ x ∈ Ioo 0 s := by
  simp only [mem_Ioo, div_lt_one hs, div_pos_iff_of_pos_right hs]

theorem logpdf_in (hc : 0 ≤ c) (hs : 0 < s) {x : ℝ} (hx : x ∈ Ioo 0 s) :
    logpdf (fin x) (fin c) (fin s) = .ok (fin (Real.log (f c (x / s) / s))) := by
  have hz := (mem_Ioo_div hs).2 hx
  have h0 : ¬ x < 0 := hx.1.not_gt
  have h1 : ¬ s < x := hx.2.not_gt
  have hp := h_pos hc hz
  have hw := w_pos hz
  have hn : 0 < 1 - (x / s) ^ 2 := by nlinarith [hz.1, hz.2]
  rw [Real.log_div (f_in (c := c) hz ▸ hp.ne') hs.ne', f_in hz, h, Real.log_mul (mul_pos hz.1 hw).ne' (k_pos hc _).ne', Real.log_mul hz.1.ne' hw.ne', w,
    Real.log_sqrt hn.le]
  by_cases h : c = 0
  · subst h
    have e1 : Real.log (1 - (x / s) ^ 2) = Real.log (1 - x / s) + Real.log (1 + x / s) := by
      rw [← Real.log_mul (by linarith [hz.2]) (by linarith [hz.1]), sq_eq']
    simp only [logpdf, validate_ok hc hs, ok_bind, zero_def, fin_lt, h0, gt_iff, h1, or_self, if_false, fin_div _ hs.ne', fin_eq, if_true,
      ofNat_def, mp.log_pos (show (0:ℝ) < 3 by norm_num), mp.log_pos hz.1, neg_fin, mp_log1p_neg hz.2, mp.log1p_pos (show -1 < x / s by linarith [hz.1]),
      mp.log_pos hs, fin_add, fin_mul, fin_sub, pure_eq_ok, e1, k]
    congr 2; ring
  · have hc' := lt_of_le_of_ne hc (Ne.symm h)
    have hP := Psi_pos hc'
    have h2 : 0 < 2 * Real.pi := by positivity
    have e2 : Real.log (k c √(1 - (x / s) ^ 2)) = 3 * Real.log c + (-Real.log (2 * Real.pi) / 2 - c ^ 2 * (1 - (x / s) ^ 2) / 2) - Real.log (Psi c) := by
      rw [k, if_neg h, Real.log_div (by have := phi_pos (c * √(1 - (x / s) ^ 2)); positivity) hP.ne', Real.log_mul (by positivity) (phi_pos _).ne',
        Real.log_pow, log_phi, mul_pow, Real.sq_sqrt hn.le]
      push_cast; ring
    simp only [logpdf, validate_ok hc hs, ok_bind, zero_def, one_def, fin_lt, h0, gt_iff, h1, or_self, if_false, fin_div _ hs.ne', fin_eq, h,
      ofNat_def, mp.log_pos hc', mp.pi_def, fin_mul, mp.log_pos h2, fin_div _ two_ne_zero, psi_eval, mp.log_pos hP, mp.log_pos hs, mp.log_pos hz.1, neg_fin,
      mp.ipow_fin, mp_log1p_neg (show (x / s) ^ 2 < 1 by linarith), fin_add, fin_sub, pure_eq_ok, e2]
    congr 2; ring

theorem logpdf_out (hc : 0 ≤ c) (hs : 0 < s) {x : ℝ} (hx : x ∉ Ioo 0 s) : logpdf (fin x) (fin c) (fin s) = .ok ninf := by
  by_cases h0 : x < 0
  · simp [logpdf, validate_ok hc hs, h0]
  by_cases h1 : s < x
  · simp [logpdf, validate_ok hc hs, h1]
  have h2 : 0 < 2 * Real.pi := by positivity
  have hh : (0:ℝ) < 1 / 2 := by norm_num
  rcases (not_lt.1 h0).eq_or_lt with rfl | hx0
  · by_cases h : c = 0
    · subst h
      simp only [logpdf, validate_ok hc hs, ok_bind, zero_def, fin_lt, h0, gt_iff, h1, or_self, if_false, fin_div _ hs.ne', fin_eq, if_true,
        ofNat_def, mp.log_pos (show (0:ℝ) < 3 by norm_num), zero_div, neg_fin, neg_zero, mp_log1p_zero, mp.log_zero,
        mp.log_pos hs, fin_add, fin_mul, pure_eq_ok, fin_add_ninf, ninf_add_fin, ninf_sub_fin]
    · have hc' := lt_of_le_of_ne hc (Ne.symm h)
      have hP := Psi_pos hc'
      have e : mp.log1p (fin (-0 ^ 2)) = .ok (fin 0) := by simp
      simp only [logpdf, validate_ok hc hs, ok_bind, zero_def, one_def, fin_lt, h0, gt_iff, h1, or_self, if_false, fin_div _ hs.ne', fin_eq, h,
        ofNat_def, mp.log_pos hc', mp.pi_def, fin_mul, mp.log_pos h2, fin_div _ two_ne_zero, psi_eval, mp.log_pos hP, mp.log_pos hs, zero_div, mp.log_zero, neg_fin,
        mp.ipow_fin, e, fin_add, fin_sub, pure_eq_ok, fin_add_ninf, ninf_add_fin]
  · have hxs : x = s := le_antisymm (not_lt.1 h1) (not_lt.1 fun h => hx ⟨hx0, h⟩)
    subst hxs
    by_cases h : c = 0
    · subst h
      simp only [logpdf, validate_ok hc hs, ok_bind, zero_def, fin_lt, h0, gt_iff, h1, or_self, if_false, fin_div _ hs.ne', fin_eq, if_true,
        ofNat_def, mp.log_pos (show (0:ℝ) < 3 by norm_num), div_self hs.ne', neg_fin, mp_log_one, mp.log1p_neg_one, mp.log1p_pos (show (-1:ℝ) < 1 by norm_num),
        mp.log_pos hs, fin_add, fin_mul_ninf, scaleInf_pos hh, pure_eq_ok, fin_add_ninf, ninf_add_fin, ninf_sub_fin]
    · have hc' := lt_of_le_of_ne hc (Ne.symm h)
      have hP := Psi_pos hc'
      simp only [logpdf, validate_ok hc hs, ok_bind, zero_def, one_def, fin_lt, h0, gt_iff, h1, or_self, if_false, fin_div _ hs.ne', fin_eq, h,
        ofNat_def, mp.log_pos hc', mp.pi_def, fin_mul, mp.log_pos h2, fin_div _ two_ne_zero, psi_eval, mp.log_pos hP, mp.log_pos hs, div_self hs.ne', mp_log_one, neg_fin,
        mp.ipow_fin, one_pow, mp.log1p_neg_one, ninf_div_pos two_pos, fin_add, fin_sub, pure_eq_ok, fin_add_ninf, ninf_add_fin]

theorem f_zero (hs : 0 < s) (x : ℝ) (hx : x ∉ Ioo 0 s) : f c (x / s) / s = 0 := by
  rw [f_out fun h => hx ((mem_Ioo_div hs).1 h), zero_div]
theorem f_pos (hc : 0 ≤ c) (hs : 0 < s) {x : ℝ} (hx : x ∈ Ioo 0 s) : 0 < f c (x / s) / s := by
  have hz := (mem_Ioo_div hs).2 hx
  rw [f_in hz]; exact div_pos (h_pos hc hz) hs

theorem pdf_eval (hc : 0 ≤ c) (hs : 0 < s) (x : ℝ) : pdf (fin x) (fin c) (fin s) = .ok (fin (f c (x / s) / s)) := by
  by_cases hx : x ∈ Ioo 0 s
  · have h0 : ¬ x < 0 := hx.1.not_gt
    have h1 : ¬ s < x := hx.2.not_gt
    simp only [pdf, validate_ok hc hs, ok_bind, zero_def, fin_lt, h0, gt_iff, h1, or_self, if_false, logpdf_in hc hs hx, mp.exp_fin,
      Real.exp_log (f_pos hc hs hx), pure_eq_ok]
  · rw [f_zero hs x hx]
    simp only [pdf, validate_ok hc hs, ok_bind, logpdf_out hc hs hx, mp.exp_ninf, pure_eq_ok, zero_def, ite_self]

theorem logpdf_returns (hc : 0 ≤ c) (hs : 0 < s) (x : ℝ) : Returns (logpdf (fin x) (fin c) (fin s)) := by
  by_cases hx : x ∈ Ioo 0 s
  · exact ⟨_, logpdf_in hc hs hx⟩
  · exact ⟨_, logpdf_out hc hs hx⟩

theorem mean_eval (hc : 0 ≤ c) (hs : 0 < s) : mean (fin c) (fin s) = .ok (fin (s * m c)) := by
  by_cases h : c = 0
  · subst h
    simp only [mean, validate_ok hc hs, ok_bind, zero_def, fin_eq, if_true, ofNat_def, mp.pi_def, fin_mul, fin_div _ (show (16:ℝ) ≠ 0 by norm_num), m]
    congr 2; ring
  · have hP := (Psi_pos (lt_of_le_of_ne hc (Ne.symm h))).ne'
    simp only [mean, validate_ok hc hs, ok_bind, zero_def, fin_eq, h, if_false, ofNat_def, mp.pi_def, mp.ipow_fin, fin_div _ (show (4:ℝ) ≠ 0 by norm_num),
      fin_div _ (show (8:ℝ) ≠ 0 by norm_num), mp.sqrt_nonneg (show 0 ≤ Real.pi / 8 by positivity), fin_mul, neg_fin, mp.exp_fin, mp.besseli_fin, psi_eval,
      fin_div _ hP, m]
    congr 2; ring
theorem var_eval (hc : 0 ≤ c) (hs : 0 < s) : var (fin c) (fin s) = .ok (fin (s ^ 2 * (1 - J c 1 - m c ^ 2))) := by
  by_cases h : c = 0
  · subst h
    simp only [var, validate_ok hc hs, ok_bind, mean_eval hc hs, zero_def, fin_eq, if_true, ofNat_def, mp.pi_def, mp.ipow_fin, fin_mul,
      fin_div _ (show (256:ℝ) ≠ 0 by norm_num), fin_sub, pure_eq_ok, m, J]
    congr 2; ring
  · have hP := (Psi_pos (lt_of_le_of_ne hc (Ne.symm h))).ne'
    have h2 : c ^ 2 ≠ 0 := pow_ne_zero 2 h
    simp only [var, validate_ok hc hs, ok_bind, mean_eval hc hs, zero_def, one_def, fin_eq, h, if_false, ofNat_def, mp.ipow_fin, fin_mul,
      fin_div _ h2, mp.npdf_std', psi_eval, fin_div _ hP, fin_sub, fin_add, pure_eq_ok, J, mul_one]
    congr 2; field_simp; ring
theorem mode_eval (hc : 0 ≤ c) (hs : 0 < s) : mode (fin c) (fin s) = .ok (fin (s * √(t0 c))) := by
  have h2 : √(2:ℝ) ≠ 0 := (Real.sqrt_pos.2 two_pos).ne'
  by_cases h : c = 0
  · subst h
    simp only [mode, validate_ok hc hs, ok_bind, zero_def, fin_eq, if_true, ofNat_def, mp.sqrt_nonneg zero_le_two, fin_div _ h2, t0]
    rw [Real.sqrt_div zero_le_one, Real.sqrt_one, mul_one_div]
  · have hc' := lt_of_le_of_ne hc (Ne.symm h)
    have h3 : 0 ≤ (c ^ 2) ^ 2 + 4 := by positivity
    have h4 : 0 ≤ c ^ 2 - 2 + √((c ^ 2) ^ 2 + 4) := by
      have := (t0_spec hc).1.1
      rw [t0, if_neg h, lt_div_iff₀ (by positivity), zero_mul] at this
      exact this.le
    simp only [mode, validate_ok hc hs, ok_bind, zero_def, fin_eq, h, if_false, ofNat_def, mp.sqrt_nonneg zero_le_two, fin_div _ h2, fin_div _ h,
      mp.ipow_fin, fin_add, mp.sqrt_nonneg h3, fin_sub, mp.sqrt_nonneg h4, fin_mul, pure_eq_ok, t0]
    rw [Real.sqrt_div h4, Real.sqrt_mul zero_le_two, Real.sqrt_sq hc]
    congr 2; field_simp

end Mpsci.argus
