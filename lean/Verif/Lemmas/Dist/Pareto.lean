import Verif.Model.Dist.Pareto
import Verif.Lemmas.Common
import Verif.Lemmas.Helpers
import Mathlib.Analysis.SpecialFunctions.Pow.Deriv
import Mathlib.Analysis.SpecialFunctions.Pow.Asymptotics

namespace Mpsci.pareto

open Classical Num common Filter Topology Set

variable {b loc s : ℝ}

noncomputable def F (b z : ℝ) : ℝ := if z < 1 then 0 else 1 - z ^ (-b)
noncomputable def f (b z : ℝ) : ℝ := if z < 1 then 0 else b * z ^ (-b - 1)
noncomputable def Q (b p : ℝ) : ℝ := (1 - p) ^ (-1 / b)

theorem validate_ok (hb : 0 < b) (hs : 0 < s) :
    validateParams (fin b) (fin loc) (fin s) = .ok (fin b, fin loc, fin s) := by
  simp [validateParams, hb.not_ge, hs.not_ge]
theorem validate_bad (h : ¬ (0 < b ∧ 0 < s)) :
    validateParams (fin b) (fin loc) (fin s) = .error .valueError := by
  by_cases hb : b ≤ 0
  · simp [validateParams, hb]
  · have : s ≤ 0 := by by_contra h'; exact h ⟨not_le.1 hb, not_le.1 h'⟩
    simp [validateParams, hb, this]

theorem affine_lt_one (hs : 0 < s) (x : ℝ) : x < loc + s ↔ (x - loc) / s < 1 := by
  rw [div_lt_one hs, sub_lt_iff_lt_add']

theorem z_pos {z : ℝ} (h : ¬ z < 1) : 0 < z := by linarith

theorem cdf_eval (hb : 0 < b) (hs : 0 < s) (x : ℝ) :
    cdf (fin x) (fin b) (fin loc) (fin s) = .ok (fin (F b ((x - loc) / s))) := by
  by_cases h : (x - loc) / s < 1
  · simp [cdf, validate_ok hb hs, F, h, affine_lt_one hs]
  · simp [cdf, validate_ok hb hs, F, h, affine_lt_one hs, fin_div _ hs.ne', mp.powm1_pos (z_pos h)]
theorem sf_eval (hb : 0 < b) (hs : 0 < s) (x : ℝ) :
    sf (fin x) (fin b) (fin loc) (fin s) = .ok (fin (1 - F b ((x - loc) / s))) := by
  by_cases h : (x - loc) / s < 1
  · simp [sf, validate_ok hb hs, F, h, affine_lt_one hs]
  · simp [sf, validate_ok hb hs, F, h, affine_lt_one hs, fin_div _ hs.ne', mp.power_pos (z_pos h)]
theorem pdf_eval (hb : 0 < b) (hs : 0 < s) (x : ℝ) :
    pdf (fin x) (fin b) (fin loc) (fin s) = .ok (fin (f b ((x - loc) / s) / s)) := by
  by_cases h : (x - loc) / s < 1
  · simp [pdf, validate_ok hb hs, f, h, affine_lt_one hs]
  · simp [pdf, validate_ok hb hs, f, h, affine_lt_one hs, fin_div _ hs.ne', mp.power_pos (z_pos h)]
theorem f_pos (hb : 0 < b) {z : ℝ} (h : ¬ z < 1) : 0 < f b z := by
  rw [f, if_neg h]; have := z_pos h; positivity
theorem f_zero (_ : 0 < b) (hs : 0 < s) : ∀ x, x ∉ Ici (loc + s) → f b ((x - loc) / s) / s = 0 := by
  intro x hx
  have : (x - loc) / s < 1 := (affine_lt_one hs x).1 (by simpa using hx)
  simp [f, this]
theorem logpdf_ge (hb : 0 < b) (hs : 0 < s) {x : ℝ} (h : ¬ x < loc + s) :
    logpdf (fin x) (fin b) (fin loc) (fin s) = .ok (fin (Real.log (f b ((x - loc) / s) / s))) := by
  have h1 : ¬ (x - loc) / s < 1 := by rwa [← affine_lt_one hs]
  have h2 : 0 < x - loc := by linarith
  have h3 : 0 < (x - loc) / s := z_pos h1
  simp only [logpdf, validate_ok hb hs, ok_bind, fin_add, fin_lt, h, if_false, fin_sub,
    mp.log_pos h2, mp.log_pos hb, mp.log_pos hs, one_def, fin_mul, pure_eq_ok, f, h1]
  rw [Real.log_div (by positivity) hs.ne', Real.log_mul hb.ne' (by positivity), Real.log_rpow h3,
    Real.log_div h2.ne' hs.ne']
  congr 2; ring
theorem logpdf_lt (hb : 0 < b) (hs : 0 < s) {x : ℝ} (h : x < loc + s) :
    logpdf (fin x) (fin b) (fin loc) (fin s) = .ok ninf := by
  simp [logpdf, validate_ok hb hs, h]
theorem pdf_returns (hb : 0 < b) (hs : 0 < s) (x : ℝ) :
    Spec.Returns (pdf (fin x) (fin b) (fin loc) (fin s)) := ⟨_, pdf_eval hb hs x⟩
theorem logpdf_returns (hb : 0 < b) (hs : 0 < s) (x : ℝ) :
    Spec.Returns (logpdf (fin x) (fin b) (fin loc) (fin s)) := by
  by_cases h : x < loc + s
  · exact ⟨_, logpdf_lt hb hs h⟩
  · exact ⟨_, logpdf_ge hb hs h⟩

theorem isDist_std (hb : 0 < b) : IsDist (F b) (f b) := by
  have hd : ∀ x : ℝ, 0 < x → HasDerivAt (fun z : ℝ => 1 - z ^ (-b)) (b * x ^ (-b - 1)) x := by
    intro x hx
    have h : HasDerivAt (fun z : ℝ => 1 - z ^ (-b)) (-(-b * x ^ (-b - 1))) x :=
      (Real.hasDerivAt_rpow_const (Or.inl hx.ne')).const_sub 1
    convert h using 1; ring
  refine isDist_Ioi (a := 1) (G := fun z => 1 - z ^ (-b)) ?_ ?_ ?_ ?_ ?_ ?_ ?_ ?_ ?_
  · intro x hx
    rcases hx.eq_or_lt with rfl | h
    · simp [F]
    · simp [F, h]
  · intro x hx; simp [F, hx.not_gt]
  · simp
  · exact (hd 1 one_pos).continuousAt.continuousWithinAt
  · intro x hx; simp [f, hx]
  · exact (f_pos hb (lt_irrefl 1)).le
  · intro x hx; rw [f, if_neg hx.not_gt]; exact hd x (by linarith)
  · intro x hx; exact (f_pos hb hx.not_gt).le
  · have h := (tendsto_rpow_neg_atTop hb).const_sub 1
    simpa using h

theorem isDist (hb : 0 < b) (hs : 0 < s) :
    IsDist (fun x => F b ((x - loc) / s)) (fun x => f b ((x - loc) / s) / s) :=
  (isDist_std hb).affine loc hs

theorem invPowm1_eval (hb : 0 < b) {p : ℝ} (h1 : p < 1) :
    fun_.invPowm1 (fin (-p)) (fin (-b)) = .ok (fin (Q b p)) := by
  have hp : 0 < 1 - p := by linarith
  have hb' : -b ≠ 0 := by linarith
  have hb2 : 1 / -b ≠ 0 := by simp [hb.ne']
  have hp1 : ¬ (-p ≤ -1) := by linarith
  simp only [fun_.invPowm1, fun_.xlog1py, zero_def, fin_eq, hb', if_false, fin_le, hp1, one_def,
    fin_div _ hb', ok_bind, mp.isnan_fin, or_self, hb2, mp_log1p_neg h1, fin_mul, pure_eq_ok,
    mp.exp_fin, Q, Real.rpow_def_of_pos hp]
  congr 3; field_simp

theorem invcdf_eval (hb : 0 < b) (hs : 0 < s) {p : ℝ} (h0 : 0 < p) (h1 : p < 1) :
    invcdf (fin p) (fin b) (fin loc) (fin s) = .ok (fin (loc + s * Q b p)) := by
  simp [invcdf, validateP_ok h0.le h1.le, validate_ok hb hs, invPowm1_eval hb h1]
theorem invsf_eval (hb : 0 < b) (hs : 0 < s) {p : ℝ} (h0 : 0 < p) (h1 : p < 1) :
    invsf (fin p) (fin b) (fin loc) (fin s) = .ok (fin (loc + s * Q b (1 - p))) := by
  simp [invsf, validateP_ok h0.le h1.le, validate_ok hb hs, fin_div _ hb.ne', mp.power_pos h0, Q]

theorem F_Q (hb : 0 < b) (_ : 0 < s) {p : ℝ} (h0 : 0 < p) (h1 : p < 1) :
    Q b p ∈ Ioi (1:ℝ) ∧ F b (Q b p) = p := by
  have hp : 0 < 1 - p := by linarith
  have hQ : 1 < Q b p :=
    Real.one_lt_rpow_of_pos_of_lt_one_of_neg hp (by linarith) (by rw [neg_div]; simp [hb])
  refine ⟨hQ, ?_⟩
  rw [F, if_neg hQ.not_gt, Q, ← Real.rpow_mul hp.le]
  have : -1 / b * -b = 1 := by field_simp
  rw [this, Real.rpow_one]; ring

theorem Q_F (hb : 0 < b) (_ : 0 < s) {z : ℝ} (hz : z ∈ Ioi (1:ℝ)) :
    0 < F b z ∧ F b z < 1 ∧ Q b (F b z) = z := by
  have h : 1 < z := hz
  have h' : 0 < z := by linarith
  have h1 : z ^ (-b) < 1 := Real.rpow_lt_one_of_one_lt_of_neg h (by linarith)
  have h2 : 0 < z ^ (-b) := by positivity
  rw [F, if_neg h.not_gt]
  refine ⟨by linarith, by linarith, ?_⟩
  rw [Q, sub_sub_cancel, ← Real.rpow_mul h'.le]
  have : -b * (-1 / b) = 1 := by field_simp
  rw [this, Real.rpow_one]

end Mpsci.pareto
