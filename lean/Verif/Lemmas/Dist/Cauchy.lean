import Verif.Model.Dist.Cauchy
import Verif.Lemmas.Common
import Verif.Lemmas.Helpers
import Mathlib.Analysis.SpecialFunctions.Trigonometric.ArctanDeriv

namespace Mpsci.cauchy

open Classical Num common Filter Topology Set

noncomputable def F (z : ℝ) : ℝ := 1 / 2 + Real.arctan z / Real.pi
noncomputable def f (z : ℝ) : ℝ := 1 / (Real.pi * (1 + z ^ 2))
noncomputable def Q (p : ℝ) : ℝ := Real.tan (Real.pi * p - Real.pi / 2)

variable {loc s : ℝ}

theorem f_pos (z : ℝ) : 0 < f z := by
  have := Real.pi_pos
  rw [f]; positivity

theorem cdf_eval (hs : 0 < s) (x : ℝ) :
    cdf (fin x) (fin loc) (fin s) = .ok (fin (F ((x - loc) / s))) := by
  have h := Real.pi_ne_zero
  simp only [cdf, validateLocScale_ok _ hs, ok_bind, fin_sub, fin_div _ hs.ne', neg_fin,
    mp.atan2pos_one, mp.pi_def, fin_div _ h, F]
  congr 2
  rw [Real.arctan_neg]; field_simp; ring
theorem sf_eval (hs : 0 < s) (x : ℝ) :
    sf (fin x) (fin loc) (fin s) = .ok (fin (1 - F ((x - loc) / s))) := by
  have h := Real.pi_ne_zero
  simp only [sf, validateLocScale_ok _ hs, ok_bind, fin_sub, fin_div _ hs.ne',
    mp.atan2pos_one, mp.pi_def, fin_div _ h, F]
  congr 2
  field_simp; ring
theorem pdf_eval (hs : 0 < s) (x : ℝ) :
    pdf (fin x) (fin loc) (fin s) = .ok (fin (f ((x - loc) / s) / s)) := by
  have h := Real.pi_pos
  have : Real.pi * s * (1 + ((x - loc) / s) ^ 2) ≠ 0 := by positivity
  simp only [pdf, validateLocScale_ok _ hs, ok_bind, fin_sub, fin_div _ hs.ne', mp.ipow_fin,
    mp.pi_def, fin_mul, one_def, fin_add, fin_div _ this, f]
  congr 2
  field_simp
theorem logpdf_eval (hs : 0 < s) (x : ℝ) : logpdf (fin x) (fin loc) (fin s)
    = .ok (fin (Real.log (f ((x - loc) / s) / s))) := by
  have h := Real.pi_pos
  have h1 : 0 < 1 + ((x - loc) / s) ^ 2 := by positivity
  have h2 : -1 < ((x - loc) / s) ^ 2 := by linarith
  simp only [logpdf, validateLocScale_ok _ hs, ok_bind, fin_sub, fin_div _ hs.ne', mp.ipow_fin,
    mp.pi_def, mp.log_pos h, mp.log_pos hs, mp.log1p_pos h2, neg_fin, pure_eq_ok, f]
  congr 2
  rw [Real.log_div (by positivity) hs.ne', Real.log_div one_ne_zero (by positivity),
    Real.log_mul h.ne' h1.ne', Real.log_one]
  ring

theorem isDist_std : IsDist F f := by
  have hp := Real.pi_pos
  refine isDist_univ (fun z => ?_) (fun z => (f_pos z).le) ?_ ?_
  · have h : HasDerivAt F ((1 / (1 + z ^ 2)) / Real.pi) z :=
      ((Real.hasDerivAt_arctan z).div_const Real.pi).const_add (1 / 2)
    convert h using 1
    rw [f]; field_simp
  · have h : Tendsto F atBot (𝓝 (1 / 2 + -(Real.pi / 2) / Real.pi)) :=
      ((tendsto_nhds_of_tendsto_nhdsWithin Real.tendsto_arctan_atBot).div_const Real.pi).const_add (1 / 2)
    convert h using 2
    field_simp; ring
  · have h : Tendsto F atTop (𝓝 (1 / 2 + (Real.pi / 2) / Real.pi)) :=
      ((tendsto_nhds_of_tendsto_nhdsWithin Real.tendsto_arctan_atTop).div_const Real.pi).const_add (1 / 2)
    convert h using 2
    field_simp; ring

theorem isDist (hs : 0 < s) :
    IsDist (fun x => F ((x - loc) / s)) (fun x => f ((x - loc) / s) / s) := isDist_std.affine loc hs

theorem cot_eval {p : ℝ} (h0 : 0 < p) (h1 : p < 1) :
    mp.cot (fin (Real.pi * p)) = .ok (fin (-Q p)) := by
  have hp := Real.pi_pos
  have : 0 < Real.sin (Real.pi * p) :=
    Real.sin_pos_of_pos_of_lt_pi (by positivity) (by nlinarith)
  rw [mp.cot, if_neg this.ne', Q, ← Real.tan_neg, neg_sub, Real.tan_pi_div_two_sub,
    Real.tan_eq_sin_div_cos, inv_div]

theorem invcdf_eval (hs : 0 < s) {p : ℝ} (h0 : 0 < p) (h1 : p < 1) :
    invcdf (fin p) (fin loc) (fin s) = .ok (fin (loc + s * Q p)) := by
  simp only [invcdf, validateP_ok h0.le h1.le, validateLocScale_ok _ hs, ok_bind, mp.pi_def,
    fin_mul, cot_eval h0 h1, fin_sub, pure_eq_ok]
  congr 2; ring
theorem invsf_eval (hs : 0 < s) {p : ℝ} (h0 : 0 < p) (h1 : p < 1) :
    invsf (fin p) (fin loc) (fin s) = .ok (fin (loc + s * Q (1 - p))) := by
  simp only [invsf, validateP_ok h0.le h1.le, validateLocScale_ok _ hs, ok_bind, mp.pi_def,
    fin_mul, cot_eval h0 h1, fin_add, pure_eq_ok]
  congr 3
  rw [Q, Q, ← Real.tan_neg]; congr 1; ring_nf

theorem F_Q {p : ℝ} (h0 : 0 < p) (h1 : p < 1) : Q p ∈ (univ : Set ℝ) ∧ F (Q p) = p := by
  have hp := Real.pi_pos
  refine ⟨trivial, ?_⟩
  rw [F, Q, Real.arctan_tan (by nlinarith) (by nlinarith)]
  field_simp; ring

theorem Q_F {z : ℝ} : 0 < F z ∧ F z < 1 ∧ Q (F z) = z := by
  have hp := Real.pi_pos
  have h1 := Real.neg_pi_div_two_lt_arctan z
  have h2 := Real.arctan_lt_pi_div_two z
  have e : Real.pi * F z = Real.pi / 2 + Real.arctan z := by rw [F]; field_simp
  refine ⟨?_, ?_, ?_⟩
  · by_contra h; nlinarith
  · by_contra h; nlinarith
  · rw [Q, e, add_sub_cancel_left, Real.tan_arctan]

theorem f_le (z : ℝ) : f z ≤ f 0 := by
  have hp := Real.pi_pos
  rw [f, f]
  refine one_div_le_one_div_of_le (by positivity) ?_
  nlinarith [mul_nonneg hp.le (sq_nonneg z)]

end Mpsci.cauchy
