import Verif.Model.Dist.Levy
import Verif.Lemmas.Dist.InvGamma

namespace Mpsci

open Set Num

/-- The error function is an incomplete gamma function. -/
theorem erfR_sqrt {w : ℝ} (hw : 0 ≤ w) : erfR √w = gammaD.P (1 / 2) w := by
  rcases hw.eq_or_lt with rfl | hw
  · simp [gammaD.P_zero]
  have ho : (0:ℝ) < 1 / 2 := one_half_pos
  have hp : 0 < √Real.pi := Real.sqrt_pos.2 Real.pi_pos
  obtain ⟨c, hc, e⟩ := exists_hasDerivAt_eq_slope (fun w => erfR √w - gammaD.P (1 / 2) w) (fun _ => 0) hw
    ((ContinuousOn.sub (Continuous.continuousOn ((continuous_iff_continuousAt.2 fun x => (hasDerivAt_erfR x).continuousAt).comp
      Real.continuous_sqrt)) ((gammaD.P_contOn ho).mono Icc_subset_Ici_self))) (fun c hc => by
      have h1 := (hasDerivAt_erfR √c).comp c (Real.hasDerivAt_sqrt hc.1.ne')
      have h2 := gammaD.hasDerivAt_P ho hc.1
      refine (h1.sub h2).congr_deriv ?_
      have hs := Real.sqrt_pos.2 hc.1
      have e1 : c ^ (1 / 2 - 1 : ℝ) = 1 / √c := by
        rw [Real.rpow_sub_one hc.1.ne', ← Real.sqrt_eq_rpow]
        rw [div_eq_div_iff hc.1.ne' hs.ne', Real.mul_self_sqrt hc.1.le, one_mul]
      rw [gammaD.g, e1, Real.Gamma_one_half_eq, Real.sq_sqrt hc.1.le]
      field_simp; ring)
  have h3 : 0 < w - 0 := by linarith
  have h4 := (eq_div_iff h3.ne').1 e
  simp only [zero_mul, Real.sqrt_zero, erfR_zero, gammaD.P_zero, sub_zero] at h4
  linarith

end Mpsci

namespace Mpsci.levy

open Classical Num common Filter Topology Set invgammaD

variable {mu s : ℝ}

theorem isDist (hs : 0 < s) : IsDist (fun x => F (1 / 2) ((x - mu) / (s / 2))) (fun x => f (1 / 2) ((x - mu) / (s / 2)) / (s / 2)) :=
  invgamma.isDist one_half_pos (half_pos hs)

theorem arg_eq (hs : 0 < s) (x : ℝ) : s / (2 * (x - mu)) = 1 / ((x - mu) / (s / 2)) := by
  rw [one_div_div, div_div]

theorem sf_pos (hs : 0 < s) {x : ℝ} (h : mu < x) : erfR √(s / (2 * (x - mu))) = 1 - F (1 / 2) ((x - mu) / (s / 2)) := by
  have hz : 0 < (x - mu) / (s / 2) := (affine_gt_zero (half_pos hs)).2 h
  rw [F_pos hz, sub_sub_cancel, ← arg_eq hs, erfR_sqrt]
  rw [arg_eq hs]; positivity

theorem sf_eval (hs : 0 < s) (x : ℝ) : sf (fin x) (fin mu) (fin s) = .ok (fin (1 - F (1 / 2) ((x - mu) / (s / 2)))) := by
  rcases le_or_gt x mu with h | h
  · simp [sf, validateLocScale_ok _ hs, h, F_nonpos ((affine_le_zero (half_pos hs)).2 h)]
  · have hx : 0 < x - mu := by linarith
    have h2 : 0 < 2 * (x - mu) := by positivity
    simp only [sf, validateLocScale_ok _ hs, ok_bind, fin_le, h.not_ge, if_false, ofNat_def, fin_sub, fin_mul, fin_div _ h2.ne',
      mp.sqrt_nonneg (div_pos hs h2).le, mp.erf_fin, sf_pos hs h, pure_eq_ok]
theorem cdf_eval (hs : 0 < s) (x : ℝ) : cdf (fin x) (fin mu) (fin s) = .ok (fin (F (1 / 2) ((x - mu) / (s / 2)))) := by
  rcases le_or_gt x mu with h | h
  · simp [cdf, validateLocScale_ok _ hs, h, F_nonpos ((affine_le_zero (half_pos hs)).2 h)]
  · have hx : 0 < x - mu := by linarith
    have h2 : 0 < 2 * (x - mu) := by positivity
    simp only [cdf, validateLocScale_ok _ hs, ok_bind, fin_le, h.not_ge, if_false, ofNat_def, fin_sub, fin_mul, fin_div _ h2.ne',
      mp.sqrt_nonneg (div_pos hs h2).le, mp.erfc_fin, sf_pos hs h, pure_eq_ok, sub_sub_cancel]

theorem f_pos (hs : 0 < s) {x : ℝ} (h : mu < x) : 0 < f (1 / 2) ((x - mu) / (s / 2)) / (s / 2) := invgamma.f_pos one_half_pos (half_pos hs) h
theorem f_zero (hs : 0 < s) : ∀ x, x ∉ Ioi mu → f (1 / 2) ((x - mu) / (s / 2)) / (s / 2) = 0 :=
  invgamma.f_zero one_half_pos (half_pos hs)

theorem logpdf_pos (hs : 0 < s) {x : ℝ} (h : mu < x) :
    logpdf (fin x) (fin mu) (fin s) = .ok (fin (Real.log (f (1 / 2) ((x - mu) / (s / 2)) / (s / 2)))) := by
  have hz : 0 < (x - mu) / (s / 2) := (affine_gt_zero (half_pos hs)).2 h
  have hx : 0 < x - mu := by linarith
  have h2 : 0 < 2 * (x - mu) := by positivity
  have hp : 0 < 2 * Real.pi := by positivity
  rw [Real.log_div (invgammaD.f_pos one_half_pos hz).ne' (half_pos hs).ne', log_f one_half_pos hz, Real.Gamma_one_half_eq,
    Real.log_sqrt Real.pi_pos.le, Real.log_div hx.ne' (half_pos hs).ne', Real.log_div hs.ne' two_ne_zero]
  simp only [logpdf, validateLocScale_ok _ hs, ok_bind, fin_le, h.not_ge, if_false, ofNat_def, mp.pi_def, fin_sub, fin_mul, fin_div _ h2.ne',
    mp.log_pos hs, mp.log_pos hp, mp.log_pos hx, neg_fin, fin_div _ two_ne_zero, fin_add, pure_eq_ok,
    Real.log_mul two_ne_zero Real.pi_ne_zero]
  rw [← arg_eq hs]
  congr 2; ring
theorem logpdf_low (hs : 0 < s) {x : ℝ} (h : x ≤ mu) : logpdf (fin x) (fin mu) (fin s) = .ok ninf := by
  simp [logpdf, validateLocScale_ok _ hs, h]
theorem pdf_eval (hs : 0 < s) (x : ℝ) : pdf (fin x) (fin mu) (fin s) = .ok (fin (f (1 / 2) ((x - mu) / (s / 2)) / (s / 2))) := by
  rcases le_or_gt x mu with h | h
  · simp only [pdf, logpdf_low hs h, ok_bind, mp.exp_ninf, pure_eq_ok, f_zero hs x (not_lt.2 h)]
  · simp only [pdf, logpdf_pos hs h, ok_bind, mp.exp_fin, Real.exp_log (f_pos hs h), pure_eq_ok]

theorem F_Q (hs : 0 < s) (p : ℝ) (h0 : 0 < p) (h1 : p < 1) : F (1 / 2) ((mu + s / 2 * Q (1 / 2) p - mu) / (s / 2)) = p :=
  invgamma.F_Q one_half_pos (half_pos hs) p h0 h1

theorem erfinv_eval {p : ℝ} (h0 : 0 < p) (h1 : p < 1) : mp.erfinv (fin (1 - p)) = .ok (fin √(1 / Q (1 / 2) p)) := by
  have hq := Q_pos (a := 1 / 2) p
  rw [← mp.erfinv_eval, erfR_sqrt (by positivity)]
  have := invgammaD.F_Q one_half_pos p h0 h1
  rw [F_pos hq] at this
  congr 2; linarith

theorem tail_eval (hs : 0 < s) {q : ℝ} (hq : 0 < q) : (do return fin mu + (← fin s /. (2 * mp.ipow (fin √(1 / q)) 2)) : M Num) =
    .ok (fin (mu + s / 2 * q)) := by
  have h : 2 * (1 / q) ≠ 0 := by positivity
  simp only [ofNat_def, mp.ipow_fin, Real.sq_sqrt (show 0 ≤ 1 / q by positivity), fin_mul, fin_div _ h, ok_bind, fin_add, pure_eq_ok]
  congr 2; field_simp

theorem invcdf_eval (hs : 0 < s) {p : ℝ} (h0 : 0 < p) (h1 : p < 1) :
    invcdf (fin p) (fin mu) (fin s) = .ok (fin (mu + s / 2 * Q (1 / 2) p)) := by
  rw [← tail_eval hs (Q_pos p)]
  simp only [invcdf, validateP_ok h0.le h1.le, validateLocScale_ok _ hs, ok_bind, erfcinv, one_def, fin_sub, erfinv_eval h0 h1]
theorem invsf_eval (hs : 0 < s) {p : ℝ} (h0 : 0 < p) (h1 : p < 1) :
    invsf (fin p) (fin mu) (fin s) = .ok (fin (mu + s / 2 * Q (1 / 2) (1 - p))) := by
  have h := erfinv_eval (p := 1 - p) (by linarith) (by linarith)
  rw [sub_sub_cancel] at h
  rw [← tail_eval hs (Q_pos (1 - p))]
  simp only [invsf, validateP_ok h0.le h1.le, validateLocScale_ok _ hs, ok_bind, h]

theorem Q_F {z : ℝ} (hz : 0 < z) : Q (1 / 2) (F (1 / 2) z) = z := by
  rw [F_pos hz, Q, sub_sub_cancel, gammaD.Q_P one_half_pos (one_div_pos.2 hz), one_div_one_div]

end Mpsci.levy
