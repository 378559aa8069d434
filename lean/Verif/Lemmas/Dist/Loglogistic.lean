import Verif.Model.Dist.Loglogistic
import Verif.Lemmas.Common
import Verif.Lemmas.Helpers
import Mathlib.Analysis.SpecialFunctions.Pow.Deriv
import Mathlib.Analysis.SpecialFunctions.Pow.Asymptotics

namespace Mpsci.loglogistic

open Classical Num common Filter Topology Set

variable {b s : ℝ}

noncomputable def F (b z : ℝ) : ℝ := if z ≤ 0 then 0 else 1 / (1 + z ^ (-b))
noncomputable def f (b z : ℝ) : ℝ := if z ≤ 0 then 0 else b * z ^ (b - 1) / (1 + z ^ b) ^ 2
noncomputable def Q (b p : ℝ) : ℝ := (p / (1 - p)) ^ (1 / b)

theorem validate_ok (hb : 0 < b) (hs : 0 < s) :
    validateParams (fin b) (fin s) = .ok (fin b, fin s) := by
  simp [validateParams, hb.not_ge, hs.not_ge]
theorem validate_bad (h : ¬ (0 < b ∧ 0 < s)) :
    validateParams (fin b) (fin s) = .error .valueError := by
  rcases not_and_pos h with h | h
  · simp [validateParams, h]
  · by_cases hb : b ≤ 0 <;> simp [validateParams, h, hb]

theorem cdf_eval (hb : 0 < b) (hs : 0 < s) (x : ℝ) :
    cdf (fin x) (fin b) (fin s) = .ok (fin (F b (x / s))) := by
  by_cases h : x ≤ 0
  · simp [cdf, validate_ok hb hs, F, h, scale_le_zero hs]
  · have hz : 0 < x / s := div_pos (not_le.1 h) hs
    have : 1 + (x / s) ^ (-b) ≠ 0 := by positivity
    simp [cdf, validate_ok hb hs, F, h, hz.not_ge, fin_div _ hs.ne', mp.power_pos hz, fin_div _ this]
theorem sf_eval (hb : 0 < b) (hs : 0 < s) (x : ℝ) :
    sf (fin x) (fin b) (fin s) = .ok (fin (1 - F b (x / s))) := by
  by_cases h : x ≤ 0
  · simp [sf, validate_ok hb hs, F, h, scale_le_zero hs]
  · have hz : 0 < x / s := div_pos (not_le.1 h) hs
    have : 1 + (x / s) ^ (-b) ≠ 0 := by positivity
    simp only [sf, validate_ok hb hs, ok_bind, F, zero_def, one_def, fin_le, h, if_false, hz.not_ge,
      fin_div _ hs.ne', neg_fin, mp.power_pos hz, fin_add, fin_div _ this]
    congr 2; field_simp; ring
theorem pdf_eval (hb : 0 < b) (hs : 0 < s) (x : ℝ) :
    pdf (fin x) (fin b) (fin s) = .ok (fin (f b (x / s) / s)) := by
  by_cases h : x ≤ 0
  · simp [pdf, validate_ok hb hs, f, h, scale_le_zero hs]
  · have hz : 0 < x / s := div_pos (not_le.1 h) hs
    have : (1 + (x / s) ^ b) ^ 2 ≠ 0 := by positivity
    simp only [pdf, validate_ok hb hs, ok_bind, f, zero_def, one_def, fin_le, h, if_false, hz.not_ge,
      fin_div _ hs.ne', fin_sub, fin_mul, mp.power_pos hz, fin_add, mp.ipow_fin, fin_div _ this]
    congr 2; ring
theorem f_pos (hb : 0 < b) {z : ℝ} (h : 0 < z) : 0 < f b z := by
  rw [f, if_neg h.not_ge]; positivity
theorem f_zero (_ : 0 < b) (hs : 0 < s) : ∀ x, x ∉ Ici (0:ℝ) → f b (x / s) / s = 0 := by
  intro x hx
  have : x / s ≤ 0 := (scale_le_zero hs).2 (not_le.1 hx).le
  simp [f, this]
theorem logpdf_pos (hb : 0 < b) (hs : 0 < s) {x : ℝ} (h : 0 < x) :
    logpdf (fin x) (fin b) (fin s) = .ok (fin (Real.log (f b (x / s) / s))) := by
  have hz : 0 < x / s := div_pos h hs
  have h1 : 0 < (x / s) ^ b := by positivity
  simp only [logpdf, validate_ok hb hs, ok_bind, zero_def, one_def, ofNat_def, fin_le, h.not_ge,
    if_false, fin_div _ hs.ne', mp.log_pos hb, mp.log_pos hs, mp.log_pos hz, mp.power_pos hz,
    mp.log1p_pos (by linarith : (-1:ℝ) < (x / s) ^ b), fin_sub, fin_mul, fin_add, pure_eq_ok, f,
    hz.not_ge]
  have e : Real.log (b * (x / s) ^ (b - 1) / (1 + (x / s) ^ b) ^ 2 / s) =
      Real.log b + (b - 1) * Real.log (x / s) - 2 * Real.log (1 + (x / s) ^ b) - Real.log s := by
    generalize x / s = z at *
    rw [Real.log_div (by positivity) hs.ne', Real.log_div (by positivity) (by positivity),
      Real.log_mul hb.ne' (by positivity), Real.log_rpow hz, Real.log_pow]
    push_cast; ring
  rw [e]
  congr 2; ring
theorem logpdf_neg (hb : 0 < b) (hs : 0 < s) {x : ℝ} (h : x ≤ 0) :
    logpdf (fin x) (fin b) (fin s) = .ok ninf := by
  simp [logpdf, validate_ok hb hs, h]
theorem pdf_returns (hb : 0 < b) (hs : 0 < s) (x : ℝ) :
    Spec.Returns (pdf (fin x) (fin b) (fin s)) := ⟨_, pdf_eval hb hs x⟩
theorem logpdf_returns (hb : 0 < b) (hs : 0 < s) (x : ℝ) :
    Spec.Returns (logpdf (fin x) (fin b) (fin s)) := by
  rcases le_or_gt x 0 with h | h
  · exact ⟨_, logpdf_neg hb hs h⟩
  · exact ⟨_, logpdf_pos hb hs h⟩

theorem isDist_std (hb : 0 < b) : IsDist (F b) (f b) := by
  refine isDist_Ioi (a := 0) (G := fun z => 1 - 1 / (1 + z ^ b)) ?_ ?_ ?_ ?_ ?_ ?_ ?_ ?_ ?_
  · intro x hx; simp [F, hx]
  · intro x hx
    have := Real.rpow_pos_of_pos hx b
    rw [F, if_neg hx.not_ge, Real.rpow_neg hx.le]; field_simp; ring
  · simp [Real.zero_rpow hb.ne']
  · have h : ContinuousAt (fun z : ℝ => z ^ b) 0 := Real.continuousAt_rpow_const _ _ (Or.inr hb.le)
    refine (ContinuousAt.sub continuousAt_const (continuousAt_const.div
      (continuousAt_const.add h) ?_)).continuousWithinAt
    simp [Real.zero_rpow hb.ne']
  · intro x hx; simp [f, hx.le]
  · simp [f]
  · intro x hx
    have h0 := Real.rpow_pos_of_pos hx b
    have h1 : HasDerivAt (fun z : ℝ => 1 + z ^ b) (b * x ^ (b - 1)) x :=
      (Real.hasDerivAt_rpow_const (Or.inl hx.ne')).const_add 1
    have h2 : HasDerivAt (fun z : ℝ => 1 + z ^ b)⁻¹ (-(b * x ^ (b - 1)) / (1 + x ^ b) ^ 2) x :=
      h1.inv (by positivity)
    have h3 : HasDerivAt (fun z : ℝ => 1 - (fun z : ℝ => 1 + z ^ b)⁻¹ z)
      (-(-(b * x ^ (b - 1)) / (1 + x ^ b) ^ 2)) x := h2.const_sub 1
    rw [f, if_neg hx.not_ge]
    have e : (fun z : ℝ => 1 - 1 / (1 + z ^ b)) = fun z : ℝ => 1 - (fun z : ℝ => 1 + z ^ b)⁻¹ z := by
      funext z; simp
    rw [e]; convert h3 using 1; ring
  · intro x hx; exact (f_pos hb hx).le
  · have h : Tendsto (fun z : ℝ => 1 + z ^ b) atTop atTop :=
      tendsto_atTop_add_const_left _ _ (tendsto_rpow_atTop hb)
    have h2 := (tendsto_inv_atTop_zero.comp h).const_sub 1
    simpa [Function.comp_def] using h2

theorem isDist (hb : 0 < b) (hs : 0 < s) :
    IsDist (fun x => F b (x / s)) (fun x => f b (x / s) / s) := (isDist_std hb).scale hs

theorem invcdf_eval (hb : 0 < b) (hs : 0 < s) {p : ℝ} (h0 : 0 < p) (h1 : p < 1) :
    invcdf (fin p) (fin b) (fin s) = .ok (fin (s * Q b p)) := by
  have hp : 0 < 1 - p := by linarith
  simp [invcdf, validateP_ok h0.le h1.le, validate_ok hb hs, fin_div _ hb.ne', fin_div _ hp.ne',
    mp.power_pos (div_pos h0 hp), Q, h1.ne]
theorem invsf_eval (hb : 0 < b) (hs : 0 < s) {p : ℝ} (h0 : 0 < p) (h1 : p < 1) :
    invsf (fin p) (fin b) (fin s) = .ok (fin (s * Q b (1 - p))) := by
  have hp : 0 < 1 - p := by linarith
  simp [invsf, validateP_ok h0.le h1.le, validate_ok hb hs, fin_div _ hb.ne', fin_div _ h0.ne',
    mp.power_pos (div_pos hp h0), Q, h0.ne']

theorem F_Q (hb : 0 < b) (_ : 0 < s) {p : ℝ} (h0 : 0 < p) (h1 : p < 1) :
    Q b p ∈ Ioi (0:ℝ) ∧ F b (Q b p) = p := by
  have hp : 0 < 1 - p := by linarith
  have hr : 0 < p / (1 - p) := by positivity
  have hQ : 0 < Q b p := Real.rpow_pos_of_pos hr _
  refine ⟨hQ, ?_⟩
  have e : 1 / b * -b = -1 := by field_simp
  rw [F, if_neg hQ.not_ge, Q, ← Real.rpow_mul hr.le, e, Real.rpow_neg_one]
  field_simp; ring

theorem Q_F (hb : 0 < b) (_ : 0 < s) {z : ℝ} (hz : z ∈ Ioi (0:ℝ)) :
    0 < F b z ∧ F b z < 1 ∧ Q b (F b z) = z := by
  have h : 0 < z := hz
  have h2 : 0 < z ^ (-b) := by positivity
  rw [F, if_neg h.not_ge]
  refine ⟨by positivity, ?_, ?_⟩
  · rw [div_lt_one (by positivity)]; linarith
  · have e : 1 / (1 + z ^ (-b)) / (1 - 1 / (1 + z ^ (-b))) = z ^ b := by
      have : z ^ b * z ^ (-b) = 1 := by rw [← Real.rpow_add h]; simp
      have h4 : 1 - 1 / (1 + z ^ (-b)) = z ^ (-b) / (1 + z ^ (-b)) := by field_simp; ring
      rw [h4, div_div_div_cancel_right₀ (by positivity), div_eq_iff h2.ne', this]
    rw [Q, e, ← Real.rpow_mul h.le, mul_one_div_cancel hb.ne', Real.rpow_one]

end Mpsci.loglogistic
