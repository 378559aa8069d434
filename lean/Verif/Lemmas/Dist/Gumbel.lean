import Verif.Model.Dist.Gumbel
import Verif.Lemmas.Common
import Verif.Lemmas.Helpers
import Mathlib.Analysis.SpecialFunctions.ExpDeriv

namespace Mpsci.gumbel_max

open Classical Num common Filter Topology Set

/-- Standard distribution function, density and quantile function. -/
noncomputable def F (z : ℝ) : ℝ := Real.exp (-Real.exp (-z))
noncomputable def f (z : ℝ) : ℝ := Real.exp (-(z + Real.exp (-z)))
noncomputable def Q (p : ℝ) : ℝ := -Real.log (-Real.log p)

variable {loc s : ℝ}

theorem cdf_eval (hs : 0 < s) (x : ℝ) :
    cdf (fin x) (fin loc) (fin s) = .ok (fin (F ((x - loc) / s))) := by
  simp [cdf, validateLocScale_ok _ hs, fin_div _ hs.ne', F]
theorem sf_eval (hs : 0 < s) (x : ℝ) :
    sf (fin x) (fin loc) (fin s) = .ok (fin (1 - F ((x - loc) / s))) := by
  simp [sf, validateLocScale_ok _ hs, fin_div _ hs.ne', F]
theorem pdf_eval (hs : 0 < s) (x : ℝ) :
    pdf (fin x) (fin loc) (fin s) = .ok (fin (f ((x - loc) / s) / s)) := by
  simp only [pdf, logpdf, validateLocScale_ok _ hs, fin_div _ hs.ne', f, mp.log_pos hs, ok_bind,
    fin_sub, neg_fin, mp.exp_fin, fin_add, pure_eq_ok, Real.exp_sub, Real.exp_log hs]
theorem f_pos (z : ℝ) : 0 < f z := Real.exp_pos _
theorem logpdf_eval (hs : 0 < s) (x : ℝ) : logpdf (fin x) (fin loc) (fin s)
    = .ok (fin (Real.log (f ((x - loc) / s) / s))) := by
  simp only [logpdf, validateLocScale_ok _ hs, fin_div _ hs.ne', mp.log_pos hs, ok_bind,
    fin_sub, neg_fin, mp.exp_fin, fin_add, pure_eq_ok]
  rw [Real.log_div (f_pos _).ne' hs.ne', f, Real.log_exp]

theorem isDist_std : IsDist F f := by
  refine isDist_univ (fun z => ?_) (fun z => (f_pos z).le) ?_ ?_
  · have h : HasDerivAt F (Real.exp (-Real.exp (-z)) * -(Real.exp (-z) * -1)) z :=
      ((hasDerivAt_neg z).exp.neg).exp
    convert h using 1
    rw [f, neg_add, Real.exp_add]; ring
  · have h1 : Tendsto (fun z : ℝ => Real.exp (-z)) atBot atTop :=
      Real.tendsto_exp_atTop.comp tendsto_neg_atBot_atTop
    exact Real.tendsto_exp_neg_atTop_nhds_zero.comp h1
  · have h1 : Tendsto (fun z : ℝ => -Real.exp (-z)) atTop (𝓝 (-0)) :=
      Real.tendsto_exp_neg_atTop_nhds_zero.neg
    have := (Real.continuous_exp.tendsto _).comp h1
    have e : F = fun x => Real.exp (-Real.exp (-x)) := rfl
    rw [e]
    simpa [Function.comp_def] using this

theorem isDist (hs : 0 < s) :
    IsDist (fun x => F ((x - loc) / s)) (fun x => f ((x - loc) / s) / s) := isDist_std.affine loc hs

theorem neg_log_pos {p : ℝ} (h0 : 0 < p) (h1 : p < 1) : 0 < -Real.log p := by
  have := Real.log_neg h0 h1; linarith

theorem invcdf_eval (hs : 0 < s) {p : ℝ} (h0 : 0 < p) (h1 : p < 1) :
    invcdf (fin p) (fin loc) (fin s) = .ok (fin (loc + s * Q p)) := by
  simp [invcdf, validateP_ok h0.le h1.le, validateLocScale_ok _ hs, mp.log_pos h0,
    mp.log_pos (neg_log_pos h0 h1), Q, -Real.log_neg_eq_log, add_comm]
theorem invsf_eval (hs : 0 < s) {p : ℝ} (h0 : 0 < p) (h1 : p < 1) :
    invsf (fin p) (fin loc) (fin s) = .ok (fin (loc + s * Q (1 - p))) := by
  have hlog : mp.log1p (fin (-p)) = .ok (fin (Real.log (1 - p))) := by
    rw [mp.log1p_pos (by linarith)]; rfl
  simp [invsf, validateP_ok h0.le h1.le, validateLocScale_ok _ hs, hlog,
    mp.log_pos (neg_log_pos (p := 1 - p) (by linarith) (by linarith)), Q, -Real.log_neg_eq_log,
    add_comm]

theorem F_Q {p : ℝ} (h0 : 0 < p) (h1 : p < 1) : Q p ∈ (univ : Set ℝ) ∧ F (Q p) = p := by
  refine ⟨trivial, ?_⟩
  rw [F, Q, neg_neg, Real.exp_log (neg_log_pos h0 h1), neg_neg, Real.exp_log h0]

theorem Q_F {z : ℝ} : 0 < F z ∧ F z < 1 ∧ Q (F z) = z := by
  refine ⟨Real.exp_pos _, ?_, ?_⟩
  · rw [F, Real.exp_lt_one_iff]; linarith [Real.exp_pos (-z)]
  · rw [Q, F, Real.log_exp, neg_neg, Real.log_exp, neg_neg]

end Mpsci.gumbel_max

namespace Mpsci.gumbel_min
open Classical Num common Filter Topology Set

theorem neg_affine (x loc s : ℝ) : (-x - -loc) / s = -((x - loc) / s) := by ring

variable {loc s : ℝ}

theorem cdf_mirror (x : ℝ) :
    cdf (fin x) (fin loc) (fin s) = gumbel_max.sf (fin (-x)) (fin (-loc)) (fin s) := by
  by_cases hs : 0 < s
  · simp only [cdf, gumbel_max.sf, validateLocScale_ok _ hs, ok_bind, fin_sub, fin_div _ hs.ne',
      neg_affine, neg_fin, neg_neg]
  · simp [cdf, gumbel_max.sf, validateLocScale_bad _ (not_lt.1 hs)]
theorem sf_mirror (x : ℝ) :
    sf (fin x) (fin loc) (fin s) = gumbel_max.cdf (fin (-x)) (fin (-loc)) (fin s) := by
  by_cases hs : 0 < s
  · simp only [sf, gumbel_max.cdf, validateLocScale_ok _ hs, ok_bind, fin_sub, fin_div _ hs.ne',
      neg_affine, neg_fin, neg_neg]
  · simp [sf, gumbel_max.cdf, validateLocScale_bad _ (not_lt.1 hs)]
theorem logpdf_mirror (x : ℝ) :
    logpdf (fin x) (fin loc) (fin s) = gumbel_max.logpdf (fin (-x)) (fin (-loc)) (fin s) := by
  by_cases hs : 0 < s
  · simp only [logpdf, gumbel_max.logpdf, validateLocScale_ok _ hs, ok_bind, fin_sub,
      fin_div _ hs.ne', neg_affine, neg_fin, neg_neg]
  · simp [logpdf, gumbel_max.logpdf, validateLocScale_bad _ (not_lt.1 hs)]
theorem pdf_mirror (x : ℝ) :
    pdf (fin x) (fin loc) (fin s) = gumbel_max.pdf (fin (-x)) (fin (-loc)) (fin s) := by
  by_cases hs : 0 < s
  · simp only [pdf, gumbel_max.pdf, validateLocScale_ok _ hs, ok_bind, logpdf_mirror]
  · simp [pdf, gumbel_max.pdf, validateLocScale_bad _ (not_lt.1 hs)]
theorem invcdf_eval (hs : 0 < s) {p : ℝ} (h0 : 0 < p) (h1 : p < 1) :
    invcdf (fin p) (fin loc) (fin s) = .ok (fin (loc + s * -gumbel_max.Q (1 - p))) := by
  have hlog : mp.log1p (fin (-p)) = .ok (fin (Real.log (1 - p))) := by
    rw [mp.log1p_pos (by linarith)]; rfl
  simp [invcdf, validateP_ok h0.le h1.le, validateLocScale_ok _ hs, hlog,
    mp.log_pos (gumbel_max.neg_log_pos (p := 1 - p) (by linarith) (by linarith)), gumbel_max.Q,
    -Real.log_neg_eq_log, add_comm]
theorem invsf_eval (hs : 0 < s) {p : ℝ} (h0 : 0 < p) (h1 : p < 1) :
    invsf (fin p) (fin loc) (fin s) = .ok (fin (loc + s * -gumbel_max.Q p)) := by
  simp [invsf, validateP_ok h0.le h1.le, validateLocScale_ok _ hs, mp.log_pos h0,
    mp.log_pos (gumbel_max.neg_log_pos h0 h1), gumbel_max.Q, -Real.log_neg_eq_log, add_comm]

end Mpsci.gumbel_min
