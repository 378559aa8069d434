import Verif.Lemmas.Dist.Weibull
import Verif.Lemmas.Helpers

namespace Mpsci.weibull_max

open Classical Num weibull_common common Filter Topology Set

variable {k loc s : ℝ}

theorem neg_affine (x loc s : ℝ) : (-x - -loc) / s = -((x - loc) / s) := by ring

/-- cdf mirrors weibull_min's sf -/
theorem cdf_mirror (x : ℝ) :
    cdf (fin x) (fin k) (fin loc) (fin s) = weibull_min.sf (fin (-x)) (fin k) (fin (-loc)) (fin s) := by
  by_cases hv : 0 < k ∧ 0 < s
  · simp only [cdf, weibull_min.sf, validate_ok _ hv.1 hv.2, ok_bind, fin_sub, fin_div _ hv.2.ne',
      fin_le, ge_iff, neg_le_neg_iff, neg_affine, neg_fin]
  · simp [cdf, weibull_min.sf, validate_bad _ (not_and_pos hv)]

theorem sf_mirror (x : ℝ) :
    sf (fin x) (fin k) (fin loc) (fin s) = weibull_min.cdf (fin (-x)) (fin k) (fin (-loc)) (fin s) := by
  by_cases hv : 0 < k ∧ 0 < s
  · simp only [sf, weibull_min.cdf, validate_ok _ hv.1 hv.2, ok_bind, fin_sub, fin_div _ hv.2.ne',
      fin_le, ge_iff, neg_le_neg_iff, neg_affine, neg_fin]
  · simp [sf, weibull_min.cdf, validate_bad _ (not_and_pos hv)]

theorem logpdf_mirror (x : ℝ) :
    logpdf (fin x) (fin k) (fin loc) (fin s) =
      weibull_min.logpdf (fin (-x)) (fin k) (fin (-loc)) (fin s) := by
  by_cases hv : 0 < k ∧ 0 < s
  · have : -x + loc = -x - -loc := by ring
    simp only [logpdf, weibull_min.logpdf, validate_ok _ hv.1 hv.2, ok_bind, fin_sub,
      fin_div _ hv.2.ne', fin_lt, fin_eq, gt_iff, neg_lt_neg_iff, neg_inj, neg_affine, neg_fin,
      fin_add, this]
  · simp [logpdf, weibull_min.logpdf, validate_bad _ (not_and_pos hv)]

theorem pdf_mirror (x : ℝ) :
    pdf (fin x) (fin k) (fin loc) (fin s) =
      weibull_min.pdf (fin (-x)) (fin k) (fin (-loc)) (fin s) := by
  by_cases hv : 0 < k ∧ 0 < s
  · simp only [pdf, weibull_min.pdf, validate_ok _ hv.1 hv.2, ok_bind, fin_lt, fin_eq, gt_iff,
      neg_lt_neg_iff, neg_inj, logpdf_mirror]
  · simp [pdf, weibull_min.pdf, validate_bad _ (not_and_pos hv)]

theorem isDist (hk : 0 < k) (hs : 0 < s) :
    IsDist (fun x => 1 - weibull_min.F k (-loc) s (-x)) (fun x => weibull_min.f k (-loc) s (-x)) :=
  (weibull_min.isDist hk hs).reflect

theorem invcdf_eval (hk : 0 < k) (hs : 0 < s) {p : ℝ} (h0 : 0 < p) (h1 : p < 1) :
    invcdf (fin p) (fin k) (fin loc) (fin s) = .ok (fin (-weibull_min.Q k (-loc) s (1 - p))) := by
  have := weibull_min.neg_log_pos (p := 1 - p) (by linarith) (by linarith)
  rw [sub_sub_cancel] at this
  simp [invcdf, validateP_ok h0.le h1.le, validate_ok _ hk hs, mp.log_pos h0, fin_div _ hk.ne',
    mp.power_pos this, weibull_min.Q]
  ring

theorem invsf_eval (hk : 0 < k) (hs : 0 < s) {p : ℝ} (h0 : 0 < p) (h1 : p < 1) :
    invsf (fin p) (fin k) (fin loc) (fin s) = .ok (fin (-weibull_min.Q k (-loc) s p)) := by
  have hlog : mp.log1p (fin (-p)) = .ok (fin (Real.log (1 - p))) := by
    rw [mp.log1p_pos (by linarith)]; rfl
  simp [invsf, validateP_ok h0.le h1.le, validate_ok _ hk hs, hlog, fin_div _ hk.ne',
    mp.power_pos (weibull_min.neg_log_pos h0 h1), weibull_min.Q]
  ring

end Mpsci.weibull_max
