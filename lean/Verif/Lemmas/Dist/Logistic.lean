import Verif.Model.Dist.Logistic
import Verif.Lemmas.Common
import Verif.Lemmas.Helpers
import Mathlib.Analysis.SpecialFunctions.ExpDeriv

namespace Mpsci.logistic

open Classical Num common Filter Topology Set

/-- Standard distribution function, density and quantile function, in exponential form. -/
noncomputable def F (z : ℝ) : ℝ := 1 / (1 + Real.exp (-z))
noncomputable def f (z : ℝ) : ℝ := Real.exp (-z) / (1 + Real.exp (-z)) ^ 2
noncomputable def Q (p : ℝ) : ℝ := Real.log p - Real.log (1 - p)

variable {loc s : ℝ}

theorem den_pos (z : ℝ) : 0 < 1 + Real.exp (-z) := by positivity
theorem f_pos (z : ℝ) : 0 < f z := div_pos (Real.exp_pos _) (pow_pos (den_pos z) 2)

theorem exp_half (z : ℝ) : Real.exp (z / 2) ^ 2 * Real.exp (-z) = 1 ∧
    Real.exp (z / 2) * Real.exp (-(z / 2)) = 1 := by
  constructor
  · rw [← Real.exp_nat_mul, ← Real.exp_add]; simp; ring_nf
  · rw [← Real.exp_add]; simp

theorem tanh_half (z : ℝ) : (1 + Real.tanh (z / 2)) / 2 = F z := by
  obtain ⟨h1, h2⟩ := exp_half z
  have hb : Real.exp (-(z/2)) = Real.exp (z/2) * Real.exp (-z) := by
    rw [← Real.exp_add]; ring_nf
  rw [Real.tanh_eq_sinh_div_cosh, Real.sinh_eq, Real.cosh_eq, F, hb]
  have := Real.exp_pos (z / 2)
  have := Real.exp_pos (-z)
  field_simp; ring

theorem sech_half (z : ℝ) : (1 / Real.cosh (z / 2)) ^ 2 / 4 = f z := by
  obtain ⟨h1, h2⟩ := exp_half z
  have hb : Real.exp (-(z/2)) = Real.exp (z/2) * Real.exp (-z) := by
    rw [← Real.exp_add]; ring_nf
  rw [Real.cosh_eq, f, hb]
  have := Real.exp_pos (z / 2)
  have := Real.exp_pos (-z)
  field_simp
  linear_combination (-4) * h1

theorem F_neg (z : ℝ) : F (-z) = 1 - F z := by
  have h : Real.exp z * Real.exp (-z) = 1 := by rw [← Real.exp_add]; simp
  rw [F, F, neg_neg]
  have := Real.exp_pos z
  have := Real.exp_pos (-z)
  field_simp
  linear_combination -h

theorem cdf_eval (hs : 0 < s) (x : ℝ) :
    cdf (fin x) (fin loc) (fin s) = .ok (fin (F ((x - loc) / s))) := by
  simp [cdf, validateLocScale_ok _ hs, fin_div _ hs.ne', ← tanh_half]
theorem sf_eval (hs : 0 < s) (x : ℝ) :
    sf (fin x) (fin loc) (fin s) = .ok (fin (1 - F ((x - loc) / s))) := by
  simp [sf, validateLocScale_ok _ hs, fin_div _ hs.ne', ← tanh_half]; ring
theorem pdf_eval (hs : 0 < s) (x : ℝ) :
    pdf (fin x) (fin loc) (fin s) = .ok (fin (f ((x - loc) / s) / s)) := by
  have : 4 * s ≠ 0 := by positivity
  simp only [pdf, validateLocScale_ok _ hs, fin_div _ hs.ne', ok_bind, ofNat_def, fin_sub,
    fin_div _ (two_ne_zero (α := ℝ)), mp.sech_fin, mp.ipow_fin, fin_mul, fin_div _ this,
    ← sech_half]
  rw [div_div _ (4:ℝ)]
theorem logpdf_eval (hs : 0 < s) (x : ℝ) : logpdf (fin x) (fin loc) (fin s)
    = .ok (fin (Real.log (f ((x - loc) / s) / s))) := by
  have h4 : 0 < 4 * s := by positivity
  have hc : 0 < 1 / Real.cosh ((x - loc) / s / 2) := by
    have := Real.cosh_pos ((x - loc) / s / 2); positivity
  simp only [logpdf, validateLocScale_ok _ hs, fin_div _ hs.ne', ok_bind, ofNat_def, fin_sub,
    fin_div _ (two_ne_zero (α := ℝ)), mp.sech_fin, fin_mul, mp.log_pos h4, mp.log_pos hc,
    pure_eq_ok, ← sech_half]
  rw [div_div _ (4:ℝ), Real.log_div (pow_pos hc 2).ne' h4.ne', Real.log_pow]; simp

theorem hasDerivAt_F (z : ℝ) : HasDerivAt F (f z) z := by
  have h2 : HasDerivAt (fun z : ℝ => 1 + Real.exp (-z)) (Real.exp (-z) * -1) z :=
    ((hasDerivAt_neg z).exp).const_add 1
  have h : HasDerivAt F (-(Real.exp (-z) * -1) / (1 + Real.exp (-z)) ^ 2) z := by
    have e : F = (fun z => 1 + Real.exp (-z))⁻¹ := by funext x; simp [F]
    rw [e]
    exact h2.inv (den_pos z).ne'
  convert h using 1
  rw [f]; ring

theorem isDist_std : IsDist F f := by
  refine isDist_univ hasDerivAt_F (fun z => (f_pos z).le) ?_ ?_
  · have h1 : Tendsto (fun z : ℝ => 1 + Real.exp (-z)) atBot atTop :=
      tendsto_atTop_add_const_left _ _ (Real.tendsto_exp_atTop.comp tendsto_neg_atBot_atTop)
    have e : F = fun x => (1 + Real.exp (-x))⁻¹ := by funext x; simp [F]
    rw [e]
    exact tendsto_inv_atTop_zero.comp h1
  · have h1 : Tendsto (fun z : ℝ => 1 + Real.exp (-z)) atTop (𝓝 (1 + 0)) :=
      Real.tendsto_exp_neg_atTop_nhds_zero.const_add 1
    have e : F = fun x => (1 + Real.exp (-x))⁻¹ := by funext x; simp [F]
    rw [e]
    have := h1.inv₀ (by norm_num)
    simpa using this

theorem isDist (hs : 0 < s) :
    IsDist (fun x => F ((x - loc) / s)) (fun x => f ((x - loc) / s) / s) := isDist_std.affine loc hs

theorem log1p_neg {p : ℝ} (h1 : p < 1) :
    mp.log1p (fin (-p)) = .ok (fin (Real.log (1 - p))) := by
  rw [mp.log1p_pos (by linarith)]; rfl

theorem invcdf_eval (hs : 0 < s) {p : ℝ} (h0 : 0 < p) (h1 : p < 1) :
    invcdf (fin p) (fin loc) (fin s) = .ok (fin (loc + s * Q p)) := by
  simp [invcdf, validateP_ok h0.le h1.le, validateLocScale_ok _ hs, mp.log_pos h0,
    log1p_neg h1, Q]
theorem invsf_eval (hs : 0 < s) {p : ℝ} (h0 : 0 < p) (h1 : p < 1) :
    invsf (fin p) (fin loc) (fin s) = .ok (fin (loc + s * Q (1 - p))) := by
  simp [invsf, validateP_ok h0.le h1.le, validateLocScale_ok _ hs, mp.log_pos h0,
    log1p_neg h1, Q]

theorem F_Q {p : ℝ} (h0 : 0 < p) (h1 : p < 1) : Q p ∈ (univ : Set ℝ) ∧ F (Q p) = p := by
  refine ⟨trivial, ?_⟩
  have : 0 < 1 - p := by linarith
  rw [F, Q, neg_sub, Real.exp_sub, Real.exp_log h0, Real.exp_log this]
  field_simp; ring

theorem Q_F {z : ℝ} : 0 < F z ∧ F z < 1 ∧ Q (F z) = z := by
  have h := den_pos z
  have h' := Real.exp_pos (-z)
  refine ⟨by rw [F]; positivity, ?_, ?_⟩
  · rw [F, div_lt_one h]; linarith
  · have e : 1 - F z = Real.exp (-z) / (1 + Real.exp (-z)) := by rw [F]; field_simp; ring
    rw [Q, e, F, Real.log_div one_ne_zero h.ne', Real.log_div h'.ne' h.ne', Real.log_exp,
      Real.log_one]
    ring

theorem f_le (z : ℝ) : f z ≤ f 0 := by
  have h := den_pos z
  rw [f, f, div_le_div_iff₀ (by positivity) (by positivity)]
  simp
  nlinarith [sq_nonneg (1 - Real.exp (-z))]

end Mpsci.logistic
