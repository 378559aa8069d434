import Verif.Model.Dist.Laplace
import Verif.Lemmas.Common
import Verif.Lemmas.Helpers
import Mathlib.Analysis.SpecialFunctions.ExpDeriv

namespace Mpsci.laplace

open Classical Num common Filter Topology Set

/-- Standard distribution function, density and quantile function. -/
noncomputable def F (z : ℝ) : ℝ := if z ≤ 0 then Real.exp z / 2 else 1 - Real.exp (-z) / 2
noncomputable def f (z : ℝ) : ℝ := Real.exp (-|z|) / 2
noncomputable def Q (p : ℝ) : ℝ := if p ≤ 1 / 2 then Real.log (2 * p) else -Real.log (2 - 2 * p)

variable {loc s : ℝ}

theorem f_pos (z : ℝ) : 0 < f z := div_pos (Real.exp_pos _) two_pos

theorem cdf_eval (hs : 0 < s) (x : ℝ) :
    cdf (fin x) (fin loc) (fin s) = .ok (fin (F ((x - loc) / s))) := by
  have := affine_le_zero (x := x) (loc := loc) hs
  by_cases h : x ≤ loc <;>
  simp [cdf, validateLocScale_ok _ hs, fin_div _ hs.ne', F, this, h]
theorem sf_eval (hs : 0 < s) (x : ℝ) :
    sf (fin x) (fin loc) (fin s) = .ok (fin (1 - F ((x - loc) / s))) := by
  have := affine_le_zero (x := x) (loc := loc) hs
  by_cases h : x ≤ loc <;>
  simp [sf, validateLocScale_ok _ hs, fin_div _ hs.ne', F, this, h]
theorem abs_affine (hs : 0 < s) (x : ℝ) : -|x - loc| / s = -|(x - loc) / s| := by
  rw [abs_div, abs_of_pos hs, neg_div]
theorem pdf_eval (hs : 0 < s) (x : ℝ) :
    pdf (fin x) (fin loc) (fin s) = .ok (fin (f ((x - loc) / s) / s)) := by
  have : 2 * s ≠ 0 := by positivity
  simp [pdf, validateLocScale_ok _ hs, fin_div _ hs.ne', fin_div _ this, f, abs_affine hs, div_div]
theorem logpdf_eval (hs : 0 < s) (x : ℝ) : logpdf (fin x) (fin loc) (fin s)
    = .ok (fin (Real.log (f ((x - loc) / s) / s))) := by
  have : 0 < 2 * s := by positivity
  simp only [logpdf, validateLocScale_ok _ hs, fin_div _ hs.ne', mp.log_pos this, f, ofNat_def,
    abs_affine hs, div_div, ok_bind, fin_sub, abs_fin, neg_fin, fin_mul, pure_eq_ok]
  rw [Real.log_div (Real.exp_pos _).ne' this.ne', Real.log_exp]

theorem isDist_std : IsDist F f := by
  have hc : Continuous F := by
    refine Continuous.if_le (by fun_prop) (by fun_prop) continuous_id continuous_const ?_
    intro x hx; simp only [hx, id]; norm_num
  refine isDist_kink (a := 0) hc (fun z hz => ?_) (fun z => (f_pos z).le) ?_ ?_
  · rcases lt_or_gt_of_ne hz with h | h
    · have e : F =ᶠ[𝓝 z] fun z => Real.exp z / 2 := by
        filter_upwards [Iio_mem_nhds h] with y hy
        simp [F, le_of_lt (show y < 0 from hy)]
      have h1 : HasDerivAt (fun z => Real.exp z / 2) (f z) z := by
        have := (Real.hasDerivAt_exp z).div_const 2
        rwa [f, abs_of_neg h, neg_neg]
      exact h1.congr_of_eventuallyEq e
    · have e : F =ᶠ[𝓝 z] fun z => 1 - Real.exp (-z) / 2 := by
        filter_upwards [Ioi_mem_nhds h] with y hy
        simp [F, not_le.2 (show 0 < y from hy)]
      have h1 : HasDerivAt (fun z => 1 - Real.exp (-z) / 2) (f z) z := by
        have h2 : HasDerivAt (fun z : ℝ => 1 - Real.exp (-z) / 2) (-(Real.exp (-z) * -1 / 2)) z :=
          ((hasDerivAt_neg z).exp.div_const 2).const_sub 1
        convert h2 using 1
        rw [f, abs_of_pos h]; ring
      exact h1.congr_of_eventuallyEq e
  · have h1 : Tendsto (fun z => Real.exp z / 2) atBot (𝓝 (0 / 2)) :=
      Real.tendsto_exp_atBot.div_const 2
    rw [zero_div] at h1
    refine h1.congr' ?_
    filter_upwards [Iic_mem_atBot 0] with y hy
    simp [F, show y ≤ 0 from hy]
  · have h1 : Tendsto (fun z => 1 - Real.exp (-z) / 2) atTop (𝓝 (1 - 0 / 2)) :=
      (Real.tendsto_exp_neg_atTop_nhds_zero.div_const 2).const_sub 1
    rw [zero_div, sub_zero] at h1
    refine h1.congr' ?_
    filter_upwards [Ioi_mem_atTop 0] with y hy
    simp [F, not_le.2 (show 0 < y from hy)]

theorem isDist (hs : 0 < s) :
    IsDist (fun x => F ((x - loc) / s)) (fun x => f ((x - loc) / s) / s) := isDist_std.affine loc hs

theorem invcdf_eval (hs : 0 < s) {p : ℝ} (h0 : 0 < p) (h1 : p < 1) :
    invcdf (fin p) (fin loc) (fin s) = .ok (fin (loc + s * Q p)) := by
  have a : 0 < 2 * p := by linarith
  have b : 0 < 2 - 2 * p := by linarith
  by_cases h : p ≤ 1 / 2 <;>
  simp [-one_div, invcdf, validateLocScale_ok _ hs, mp.log_pos a, mp.log_pos b, Q, h]
  ring
theorem invsf_eval (hs : 0 < s) {p : ℝ} (h0 : 0 < p) (h1 : p < 1) :
    invsf (fin p) (fin loc) (fin s) = .ok (fin (loc + s * Q (1 - p))) := by
  have a : 0 < 2 * p := by linarith
  have b : 0 < 2 - 2 * p := by linarith
  have e : 2 - 2 * (1 - p) = 2 * p := by ring
  have e' : 2 * (1 - p) = 2 - 2 * p := by ring
  by_cases h : 1 / 2 ≤ p
  · have h' : 1 - p ≤ 1 / 2 := by linarith
    simp [-one_div, invsf, validateLocScale_ok _ hs, mp.log_pos a, mp.log_pos b, Q, h, h', e']
  · have h' : ¬ (1 - p ≤ 1 / 2) := by linarith
    simp only [Q, if_neg h', e]
    simp [-one_div, invsf, validateLocScale_ok _ hs, mp.log_pos a, h, sub_eq_add_neg]

theorem F_Q {p : ℝ} (h0 : 0 < p) (h1 : p < 1) : Q p ∈ (univ : Set ℝ) ∧ F (Q p) = p := by
  refine ⟨trivial, ?_⟩
  by_cases h : p ≤ 1 / 2
  · have : Real.log (2 * p) ≤ 0 := Real.log_nonpos (by linarith) (by linarith)
    rw [Q, if_pos h, F, if_pos this, Real.exp_log (by linarith)]; ring
  · have h : 1 / 2 < p := not_le.1 h
    have : ¬ (-Real.log (2 - 2 * p) ≤ 0) := by
      have := Real.log_neg (x := 2 - 2 * p) (by linarith) (by linarith)
      linarith
    rw [Q, if_neg (not_le.2 h), F, if_neg this, neg_neg, Real.exp_log (by linarith)]; ring

theorem Q_F {z : ℝ} : 0 < F z ∧ F z < 1 ∧ Q (F z) = z := by
  by_cases h : z ≤ 0
  · have h1 : Real.exp z ≤ 1 := Real.exp_le_one_iff.2 h
    have h2 := Real.exp_pos z
    rw [F, if_pos h]
    refine ⟨by positivity, by linarith, ?_⟩
    rw [Q, if_pos (by linarith), mul_div_cancel₀ _ two_ne_zero, Real.log_exp]
  · have h1 : Real.exp (-z) < 1 := Real.exp_lt_one_iff.2 (by linarith)
    have h2 := Real.exp_pos (-z)
    rw [F, if_neg h]
    refine ⟨by linarith, by linarith, ?_⟩
    have e : 2 - 2 * (1 - Real.exp (-z) / 2) = Real.exp (-z) := by ring
    rw [Q, if_neg (by linarith), e, Real.log_exp, neg_neg]

theorem f_le (z : ℝ) : f z ≤ f 0 := by
  rw [f, f, abs_zero, neg_zero]; gcongr; linarith [abs_nonneg z]

end Mpsci.laplace
