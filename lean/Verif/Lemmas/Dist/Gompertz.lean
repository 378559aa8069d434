import Verif.Model.Dist.Gompertz
import Verif.Lemmas.Common
import Verif.Lemmas.Helpers
import Mathlib.Analysis.SpecialFunctions.ExpDeriv

namespace Mpsci.gompertz

open Classical Num common Filter Topology Set

variable {c s : ℝ}

noncomputable def F (c z : ℝ) : ℝ := if z ≤ 0 then 0 else 1 - Real.exp (-c * (Real.exp z - 1))
noncomputable def f (c z : ℝ) : ℝ := if z < 0 then 0 else c * Real.exp (c + z - c * Real.exp z)
noncomputable def Q (c p : ℝ) : ℝ := Real.log (1 + -Real.log (1 - p) / c)

theorem validate_ok (hc : 0 < c) (hs : 0 < s) :
    validateCScale (fin c) (fin s) = .ok (fin c, fin s) := by
  simp [validateCScale, hc.not_ge, hs.not_ge]
theorem validate_bad (h : ¬ (0 < c ∧ 0 < s)) :
    validateCScale (fin c) (fin s) = .error .valueError := by
  rcases not_and_pos h with h | h
  · simp [validateCScale, h]
  · by_cases hb : c ≤ 0 <;> simp [validateCScale, h, hb]

theorem cdf_eval (hc : 0 < c) (hs : 0 < s) (x : ℝ) :
    cdf (fin x) (fin c) (fin s) = .ok (fin (F c (x / s))) := by
  by_cases h : x ≤ 0
  · simp [cdf, validate_ok hc hs, F, h, scale_le_zero hs]
  · have hz : ¬ x / s ≤ 0 := by rwa [scale_le_zero hs]
    simp [cdf, validate_ok hc hs, F, h, hz, fin_div _ hs.ne']
theorem sf_eval (hc : 0 < c) (hs : 0 < s) (x : ℝ) :
    sf (fin x) (fin c) (fin s) = .ok (fin (1 - F c (x / s))) := by
  by_cases h : x ≤ 0
  · simp [sf, validate_ok hc hs, F, h, scale_le_zero hs]
  · have hz : ¬ x / s ≤ 0 := by rwa [scale_le_zero hs]
    simp [sf, validate_ok hc hs, F, h, hz, fin_div _ hs.ne']
theorem pdf_eval (hc : 0 < c) (hs : 0 < s) (x : ℝ) :
    pdf (fin x) (fin c) (fin s) = .ok (fin (f c (x / s) / s)) := by
  by_cases h : x < 0
  · simp [pdf, validate_ok hc hs, f, h, scale_lt_zero hs]
  · have hz : ¬ x / s < 0 := by rwa [scale_lt_zero hs]
    simp [pdf, validate_ok hc hs, f, h, hz, fin_div _ hs.ne']
theorem f_pos (hc : 0 < c) {z : ℝ} (h : ¬ z < 0) : 0 < f c z := by
  rw [f, if_neg h]; positivity
theorem f_zero (_ : 0 < c) (hs : 0 < s) : ∀ x, x ∉ Ici (0:ℝ) → f c (x / s) / s = 0 := by
  intro x hx
  have : x / s < 0 := (scale_lt_zero hs).2 (not_le.1 hx)
  simp [f, this]
theorem logpdf_ge (hc : 0 < c) (hs : 0 < s) {x : ℝ} (h : ¬ x < 0) :
    logpdf (fin x) (fin c) (fin s) = .ok (fin (Real.log (f c (x / s) / s))) := by
  have hz : ¬ x / s < 0 := by rwa [scale_lt_zero hs]
  rw [f, if_neg hz, Real.log_div (by positivity) hs.ne', Real.log_mul hc.ne' (by positivity),
    Real.log_exp]
  simp [logpdf, validate_ok hc hs, h, fin_div _ hs.ne', mp.log_pos hc, mp.log_pos hs]
  ring
theorem logpdf_lt (hc : 0 < c) (hs : 0 < s) {x : ℝ} (h : x < 0) :
    logpdf (fin x) (fin c) (fin s) = .ok ninf := by
  simp [logpdf, validate_ok hc hs, h]
theorem pdf_returns (hc : 0 < c) (hs : 0 < s) (x : ℝ) :
    Spec.Returns (pdf (fin x) (fin c) (fin s)) := ⟨_, pdf_eval hc hs x⟩
theorem logpdf_returns (hc : 0 < c) (hs : 0 < s) (x : ℝ) :
    Spec.Returns (logpdf (fin x) (fin c) (fin s)) := by
  by_cases h : x < 0
  · exact ⟨_, logpdf_lt hc hs h⟩
  · exact ⟨_, logpdf_ge hc hs h⟩

theorem isDist_std (hc : 0 < c) : IsDist (F c) (f c) := by
  have hd : ∀ x : ℝ, HasDerivAt (fun z : ℝ => 1 - Real.exp (-c * (Real.exp z - 1)))
      (c * Real.exp (c + x - c * Real.exp x)) x := by
    intro x
    have h1 : HasDerivAt (fun z : ℝ => -c * (Real.exp z - 1)) (-c * Real.exp x) x :=
      ((Real.hasDerivAt_exp x).sub_const 1).const_mul _
    have h2 : HasDerivAt (fun z : ℝ => 1 - Real.exp (-c * (Real.exp z - 1)))
      (-(Real.exp (-c * (Real.exp x - 1)) * (-c * Real.exp x))) x := (h1.exp).const_sub 1
    have e : c * Real.exp (c + x - c * Real.exp x) =
        -(Real.exp (-c * (Real.exp x - 1)) * (-c * Real.exp x)) := by
      have : c + x - c * Real.exp x = -c * (Real.exp x - 1) + x := by ring
      rw [this, Real.exp_add]; ring
    rw [e]; exact h2
  refine isDist_Ioi (a := 0) (G := fun z => 1 - Real.exp (-c * (Real.exp z - 1)))
    ?_ ?_ ?_ ?_ ?_ ?_ ?_ ?_ ?_
  · intro x hx; simp [F, hx]
  · intro x hx; simp [F, hx.not_ge]
  · simp
  · exact (hd 0).continuousAt.continuousWithinAt
  · intro x hx; simp [f, hx]
  · exact (f_pos hc (lt_irrefl 0)).le
  · intro x hx; rw [f, if_neg hx.not_gt]; exact hd x
  · intro x hx; exact (f_pos hc hx.not_gt).le
  · have h : Tendsto (fun z : ℝ => -c * (Real.exp z - 1)) atTop atBot :=
      (tendsto_atTop_add_const_right _ (-1) Real.tendsto_exp_atTop).const_mul_atTop_of_neg
        (by linarith)
    have h2 := (Real.tendsto_exp_atBot.comp h).const_sub 1
    simpa [Function.comp_def] using h2

theorem isDist (hc : 0 < c) (hs : 0 < s) :
    IsDist (fun x => F c (x / s)) (fun x => f c (x / s) / s) := (isDist_std hc).scale hs

theorem log_arg_pos (hc : 0 < c) {p : ℝ} (h0 : 0 < p) (h1 : p < 1) :
    0 < -Real.log (1 - p) / c :=
  div_pos (by have := Real.log_neg (by linarith : 0 < 1 - p) (by linarith); linarith) hc

theorem invcdf_eval (hc : 0 < c) (hs : 0 < s) {p : ℝ} (h0 : 0 < p) (h1 : p < 1) :
    invcdf (fin p) (fin c) (fin s) = .ok (fin (s * Q c p)) := by
  have h := log_arg_pos hc h0 h1
  simp [invcdf, validateP_ok h0.le h1.le, validate_ok hc hs, fin_div _ hc.ne', h0.ne', h1.ne,
    mp_log1p_neg h1, mp.log1p_pos (by linarith : -1 < -Real.log (1 - p) / c), Q]
theorem invsf_eval (hc : 0 < c) (hs : 0 < s) {p : ℝ} (h0 : 0 < p) (h1 : p < 1) :
    invsf (fin p) (fin c) (fin s) = .ok (fin (s * Q c (1 - p))) := by
  have h := log_arg_pos hc (p := 1 - p) (by linarith) (by linarith)
  rw [sub_sub_cancel] at h
  simp [invsf, validateP_ok h0.le h1.le, validate_ok hc hs, fin_div _ hc.ne', h0.ne', h1.ne,
    mp.log_pos h0, mp.log1p_pos (by linarith : -1 < -Real.log p / c), Q]

theorem F_Q (hc : 0 < c) (_ : 0 < s) {p : ℝ} (h0 : 0 < p) (h1 : p < 1) :
    Q c p ∈ Ioi (0:ℝ) ∧ F c (Q c p) = p := by
  have h := log_arg_pos hc h0 h1
  have hQ : 0 < Q c p := Real.log_pos (by linarith)
  refine ⟨hQ, ?_⟩
  rw [F, if_neg hQ.not_ge, Q, Real.exp_log (by linarith)]
  have : -c * (1 + -Real.log (1 - p) / c - 1) = Real.log (1 - p) := by field_simp; ring
  rw [this, Real.exp_log (by linarith)]; ring

theorem Q_F (hc : 0 < c) (_ : 0 < s) {z : ℝ} (hz : z ∈ Ioi (0:ℝ)) :
    0 < F c z ∧ F c z < 1 ∧ Q c (F c z) = z := by
  have h : 0 < z := hz
  rw [F, if_neg h.not_ge]
  have h2 : 0 < Real.exp z - 1 := by linarith [Real.add_one_lt_exp h.ne']
  refine ⟨?_, by linarith [Real.exp_pos (-c * (Real.exp z - 1))], ?_⟩
  · have : Real.exp (-c * (Real.exp z - 1)) < 1 := Real.exp_lt_one_iff.2 (by nlinarith)
    linarith
  · rw [Q, sub_sub_cancel, Real.log_exp]
    have : 1 + -(-c * (Real.exp z - 1)) / c = Real.exp z := by field_simp; ring
    rw [this, Real.log_exp]

theorem f_le_of_ge (hc : 1 ≤ c) (z : ℝ) : f c z ≤ f c 0 := by
  by_cases h : z < 0
  · rw [f, if_pos h]; exact (f_pos (by linarith) (lt_irrefl 0)).le
  · rw [f, f, if_neg h, if_neg (lt_irrefl 0)]
    gcongr c * ?_
    apply Real.exp_le_exp.2
    rw [Real.exp_zero]
    nlinarith [Real.add_one_le_exp z]

theorem f_le_of_lt (hc : 0 < c) (hc1 : c < 1) (z : ℝ) : f c z ≤ f c (-Real.log c) := by
  have hl : ¬ -Real.log c < 0 := by linarith [Real.log_neg hc hc1]
  by_cases h : z < 0
  · rw [f, if_pos h]; exact (f_pos hc hl).le
  · rw [f, f, if_neg h, if_neg hl]
    gcongr c * ?_
    apply Real.exp_le_exp.2
    rw [Real.exp_neg, Real.exp_log hc, mul_inv_cancel₀ hc.ne']
    have e : c * Real.exp z = Real.exp (z + Real.log c) := by
      rw [Real.exp_add, Real.exp_log hc]; ring
    have := Real.add_one_le_exp (z + Real.log c)
    rw [e]; linarith

end Mpsci.gompertz
