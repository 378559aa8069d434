import Verif.Model.Dist.Benini
import Verif.Lemmas.Common
import Verif.Lemmas.Helpers
import Mathlib.Analysis.SpecialFunctions.Log.Deriv

namespace Mpsci.benini

open Classical Num common Filter Topology Set

variable {a b s : ℝ}

/-- The exponent `L (a + b L)`. -/
noncomputable def H (a b L : ℝ) : ℝ := L * (a + b * L)
noncomputable def F (a b z : ℝ) : ℝ := if z ≤ 1 then 0 else 1 - Real.exp (-H a b (Real.log z))
noncomputable def f (a b z : ℝ) : ℝ :=
  if z < 1 then 0 else Real.exp (-H a b (Real.log z)) * (a + 2 * b * Real.log z) / z
noncomputable def W (a b p : ℝ) : ℝ := Real.sqrt (1 + -4 * b / a ^ 2 * Real.log (1 - p))
noncomputable def Q (a b p : ℝ) : ℝ := Real.exp (a / (2 * b) * (W a b p - 1))

theorem validate_ok (ha : 0 < a) (hb : 0 < b) (hs : 0 < s) :
    validateParams (fin a) (fin b) (fin s) = .ok (fin a, fin b, fin s) := by
  simp [validateParams, validatePositive, ha.not_ge, hb.not_ge, hs.not_ge]
theorem validate_bad (h : ¬ (0 < a ∧ 0 < b ∧ 0 < s)) :
    validateParams (fin a) (fin b) (fin s) = .error .valueError := by
  by_cases ha : a ≤ 0
  · simp [validateParams, validatePositive, ha]
  · by_cases hb : b ≤ 0
    · simp [validateParams, validatePositive, ha, hb]
    · have : s ≤ 0 := by by_contra h'; exact h ⟨not_le.1 ha, not_le.1 hb, not_le.1 h'⟩
      simp [validateParams, validatePositive, ha, hb, this]

theorem le_scale (hs : 0 < s) (x : ℝ) : x ≤ s ↔ x / s ≤ 1 := by rw [div_le_one hs]
theorem lt_scale (hs : 0 < s) (x : ℝ) : x < s ↔ x / s < 1 := by rw [div_lt_one hs]

theorem cdf_eval (ha : 0 < a) (hb : 0 < b) (hs : 0 < s) (x : ℝ) :
    cdf (fin x) (fin a) (fin b) (fin s) = .ok (fin (F a b (x / s))) := by
  by_cases h : x / s ≤ 1
  · simp [cdf, validate_ok ha hb hs, F, h, le_scale hs]
  · have hz : 0 < x / s := by linarith
    simp [cdf, validate_ok ha hb hs, F, H, h, le_scale hs, fin_div _ hs.ne', mp.log_pos hz]
theorem sf_eval (ha : 0 < a) (hb : 0 < b) (hs : 0 < s) (x : ℝ) :
    sf (fin x) (fin a) (fin b) (fin s) = .ok (fin (1 - F a b (x / s))) := by
  by_cases h : x / s ≤ 1
  · simp [sf, validate_ok ha hb hs, F, h, le_scale hs]
  · have hz : 0 < x / s := by linarith
    simp [sf, validate_ok ha hb hs, F, H, h, le_scale hs, fin_div _ hs.ne', mp.log_pos hz]
theorem lin_pos (ha : 0 < a) (hb : 0 < b) {z : ℝ} (h : ¬ z < 1) : 0 < a + 2 * b * Real.log z := by
  have := Real.log_nonneg (not_lt.1 h); positivity
theorem f_pos (ha : 0 < a) (hb : 0 < b) {z : ℝ} (h : ¬ z < 1) : 0 < f a b z := by
  rw [f, if_neg h]
  have := lin_pos ha hb h
  have : 0 < z := by linarith
  positivity
theorem logpdf_ge (ha : 0 < a) (hb : 0 < b) (hs : 0 < s) {x : ℝ} (h : ¬ x < s) :
    logpdf (fin x) (fin a) (fin b) (fin s) = .ok (fin (Real.log (f a b (x / s) / s))) := by
  by_cases hx : x = s
  · subst hx
    have : f a b (x / x) = a := by simp [f, H, div_self hs.ne']
    rw [this, Real.log_div ha.ne' hs.ne']
    simp [logpdf, validate_ok ha hb hs, mp.log_pos ha, mp.log_pos hs]
  · have hz1 : ¬ x / s < 1 := by rwa [← lt_scale hs]
    have hz : 0 < x / s := by linarith
    have hx0 : 0 < x := by linarith
    have hl := lin_pos ha hb hz1
    have e : a + 2 * (b * Real.log (x / s)) = a + 2 * b * Real.log (x / s) := by ring
    simp only [logpdf, validate_ok ha hb hs, ok_bind, fin_eq, hx, if_false, fin_lt, h,
      fin_div _ hs.ne', mp.log_pos hz, fin_mul, fin_add, ofNat_def, e, mp.log_pos hl, mp.log_pos hx0,
      neg_fin, fin_sub, pure_eq_ok, f, hz1]
    have e2 : Real.log (Real.exp (-H a b (Real.log (x / s))) * (a + 2 * b * Real.log (x / s)) /
        (x / s) / s) = -H a b (Real.log (x / s)) + Real.log (a + 2 * b * Real.log (x / s)) -
        Real.log x := by
      have : x / s * s = x := by field_simp
      rw [div_div, this, Real.log_div (by positivity) hx0.ne', Real.log_mul (by positivity) hl.ne',
        Real.log_exp]
    rw [e2, H]
    congr 2; ring
theorem logpdf_lt (ha : 0 < a) (hb : 0 < b) (hs : 0 < s) {x : ℝ} (h : x < s) :
    logpdf (fin x) (fin a) (fin b) (fin s) = .ok ninf := by
  simp [logpdf, validate_ok ha hb hs, h, h.ne]
theorem pdf_eval (ha : 0 < a) (hb : 0 < b) (hs : 0 < s) (x : ℝ) :
    pdf (fin x) (fin a) (fin b) (fin s) = .ok (fin (f a b (x / s) / s)) := by
  by_cases h : x < s
  · simp [pdf, logpdf_lt ha hb hs h, f, (lt_scale hs x).1 h]
  · have := f_pos ha hb (z := x / s) (by rwa [← lt_scale hs])
    rw [pdf, logpdf_ge ha hb hs h, ok_bind, mp.exp_fin, Real.exp_log (by positivity)]; rfl
theorem f_zero (_ : 0 < a) (_ : 0 < b) (hs : 0 < s) : ∀ x, x ∉ Ici s → f a b (x / s) / s = 0 := by
  intro x hx
  have : x / s < 1 := (lt_scale hs x).1 (not_le.1 hx)
  simp [f, this]
theorem pdf_returns (ha : 0 < a) (hb : 0 < b) (hs : 0 < s) (x : ℝ) :
    Spec.Returns (pdf (fin x) (fin a) (fin b) (fin s)) := ⟨_, pdf_eval ha hb hs x⟩
theorem logpdf_returns (ha : 0 < a) (hb : 0 < b) (hs : 0 < s) (x : ℝ) :
    Spec.Returns (logpdf (fin x) (fin a) (fin b) (fin s)) := by
  by_cases h : x < s
  · exact ⟨_, logpdf_lt ha hb hs h⟩
  · exact ⟨_, logpdf_ge ha hb hs h⟩

theorem isDist_std (ha : 0 < a) (hb : 0 < b) : IsDist (F a b) (f a b) := by
  have hd : ∀ x : ℝ, 0 < x → HasDerivAt (fun z : ℝ => 1 - Real.exp (-H a b (Real.log z)))
      (Real.exp (-H a b (Real.log x)) * (a + 2 * b * Real.log x) / x) x := by
    intro x hx
    have h0 := Real.hasDerivAt_log hx.ne'
    have h1 : HasDerivAt (fun z : ℝ => -(Real.log z * (a + b * Real.log z)))
        (-(x⁻¹ * (a + b * Real.log x) + Real.log x * (b * x⁻¹))) x :=
      (h0.mul ((h0.const_mul b).const_add a)).neg
    have h2 : HasDerivAt (fun z : ℝ => 1 - Real.exp (-(Real.log z * (a + b * Real.log z))))
      (-(Real.exp (-(Real.log x * (a + b * Real.log x))) *
        (-(x⁻¹ * (a + b * Real.log x) + Real.log x * (b * x⁻¹))))) x := (h1.exp).const_sub 1
    have e : Real.exp (-H a b (Real.log x)) * (a + 2 * b * Real.log x) / x =
        -(Real.exp (-(Real.log x * (a + b * Real.log x))) *
        (-(x⁻¹ * (a + b * Real.log x) + Real.log x * (b * x⁻¹)))) := by
      rw [H]; field_simp; ring
    rw [e]; exact h2
  refine isDist_Ioi (a := 1) (G := fun z => 1 - Real.exp (-H a b (Real.log z)))
    ?_ ?_ ?_ ?_ ?_ ?_ ?_ ?_ ?_
  · intro x hx; simp [F, hx]
  · intro x hx; simp [F, hx.not_ge]
  · simp [H]
  · exact (hd 1 one_pos).continuousAt.continuousWithinAt
  · intro x hx; simp [f, hx]
  · exact (f_pos ha hb (lt_irrefl 1)).le
  · intro x hx; rw [f, if_neg hx.not_gt]; exact hd x (by linarith)
  · intro x hx; exact (f_pos ha hb hx.not_gt).le
  · have hq : Tendsto (fun L : ℝ => H a b L) atTop atTop := by
      refine tendsto_atTop_mono' _ ?_ (tendsto_id.const_mul_atTop ha)
      filter_upwards [eventually_ge_atTop 0] with L hL
      simp only [id, H]; nlinarith [mul_nonneg hb.le (mul_nonneg hL hL)]
    have h : Tendsto (fun z : ℝ => -H a b (Real.log z)) atTop atBot :=
      tendsto_neg_atTop_atBot.comp (hq.comp Real.tendsto_log_atTop)
    have h2 := (Real.tendsto_exp_atBot.comp h).const_sub 1
    simpa [Function.comp_def] using h2

theorem isDist (ha : 0 < a) (hb : 0 < b) (hs : 0 < s) :
    IsDist (fun x => F a b (x / s)) (fun x => f a b (x / s) / s) := (isDist_std ha hb).scale hs

theorem r_pos (ha : 0 < a) (hb : 0 < b) {p : ℝ} (h0 : 0 < p) (h1 : p < 1) :
    0 < -4 * b / a ^ 2 * Real.log (1 - p) := by
  have := Real.log_neg (by linarith : 0 < 1 - p) (by linarith)
  have h : 0 < 4 * b / a ^ 2 := by positivity
  have e : -4 * b / a ^ 2 = -(4 * b / a ^ 2) := by ring
  rw [e]; nlinarith

theorem t_eq {r w : ℝ} (hw : 0 ≤ w) (h : w ^ 2 = 1 + r) (c : ℝ) :
    -c * (-r / (1 + w)) = c * (w - 1) := by
  have : r = (w - 1) * (w + 1) := by linarith [h, sq w]
  rw [this]; field_simp; ring

theorem invcdf_eval (ha : 0 < a) (hb : 0 < b) (hs : 0 < s) {p : ℝ} (h0 : 0 < p) (h1 : p < 1) :
    invcdf (fin p) (fin a) (fin b) (fin s) = .ok (fin (s * Q a b p)) := by
  have hr := r_pos ha hb h0 h1
  have ha2 : a ^ 2 ≠ 0 := by positivity
  have h2b : 2 * b ≠ 0 := by positivity
  have hw : 1 + Real.sqrt (1 + -4 * b / a ^ 2 * Real.log (1 - p)) ≠ 0 := by positivity
  have ht := t_eq (Real.sqrt_nonneg _) (Real.sq_sqrt (by linarith : 0 ≤ 1 + -4 * b / a ^ 2 *
    Real.log (1 - p))) (a / (2 * b))
  rw [← neg_div] at ht
  simp only [invcdf, validateP_ok h0.le h1.le, validate_ok ha hb hs, ok_bind, mp.ipow_fin, fin_mul,
    fin_div _ ha2, neg_fin, mp_log1p_neg h1, one_def, fin_add, ofNat_def, mp.sqrt_nonneg
    (by linarith : 0 ≤ 1 + -4 * b / a ^ 2 * Real.log (1 - p)), fin_div _ hw, fin_div _ h2b, pure_eq_ok,
    mp.exp_fin, Q, W, ht]

theorem invsf_eval (ha : 0 < a) (hb : 0 < b) (hs : 0 < s) {p : ℝ} (h0 : 0 < p) (h1 : p < 1) :
    invsf (fin p) (fin a) (fin b) (fin s) = .ok (fin (s * Q a b (1 - p))) := by
  rw [← invcdf_eval ha hb hs (by linarith) (by linarith)]
  simp only [invsf, invcdf, validateP_ok h0.le h1.le, validate_ok ha hb hs, ok_bind,
    validateP_ok (by linarith : 0 ≤ 1 - p) (by linarith), neg_fin, mp_log1p_neg
    (by linarith : 1 - p < 1), sub_sub_cancel, mp.log_pos h0]

theorem F_Q (ha : 0 < a) (hb : 0 < b) (_ : 0 < s) {p : ℝ} (h0 : 0 < p) (h1 : p < 1) :
    Q a b p ∈ Ioi (1:ℝ) ∧ F a b (Q a b p) = p := by
  have hr := r_pos ha hb h0 h1
  have hW2 : W a b p ^ 2 = 1 + -4 * b / a ^ 2 * Real.log (1 - p) := Real.sq_sqrt (by linarith)
  have hW : 1 < W a b p := by
    have : 0 ≤ W a b p := Real.sqrt_nonneg _
    nlinarith
  have hQ : 1 < Q a b p := Real.one_lt_exp_iff.2 (mul_pos (by positivity) (by linarith))
  refine ⟨hQ, ?_⟩
  rw [F, if_neg hQ.not_ge, Q, Real.log_exp, H]
  have : -(a / (2 * b) * (W a b p - 1) * (a + b * (a / (2 * b) * (W a b p - 1)))) =
      Real.log (1 - p) := by
    have : a / (2 * b) * (W a b p - 1) * (a + b * (a / (2 * b) * (W a b p - 1))) =
      a ^ 2 / (4 * b) * (W a b p ^ 2 - 1) := by field_simp; ring
    rw [this, hW2]; field_simp; ring
  rw [this, Real.exp_log (by linarith)]; ring

theorem Q_F (ha : 0 < a) (hb : 0 < b) (_ : 0 < s) {z : ℝ} (hz : z ∈ Ioi (1:ℝ)) :
    0 < F a b z ∧ F a b z < 1 ∧ Q a b (F a b z) = z := by
  have h : 1 < z := hz
  have hL := Real.log_pos h
  have hH : 0 < H a b (Real.log z) := by rw [H]; positivity
  rw [F, if_neg h.not_ge]
  refine ⟨?_, by linarith [Real.exp_pos (-H a b (Real.log z))], ?_⟩
  · have : Real.exp (-H a b (Real.log z)) < 1 := Real.exp_lt_one_iff.2 (by linarith)
    linarith
  · have e : W a b (1 - Real.exp (-H a b (Real.log z))) = 2 * b / a * Real.log z + 1 := by
      rw [W, sub_sub_cancel, Real.log_exp, H, Real.sqrt_eq_iff_mul_self_eq_of_pos (by positivity)]
      field_simp; ring
    rw [Q, e]
    have : a / (2 * b) * (2 * b / a * Real.log z + 1 - 1) = Real.log z := by field_simp; ring
    rw [this, Real.exp_log (by linarith)]

/-- In terms of `L = log z` the logarithm of the density is `-H(L) + log (a+2bL) - L`. -/
theorem f_eq_exp (ha : 0 < a) (hb : 0 < b) {z : ℝ} (h : ¬ z < 1) :
    f a b z = Real.exp (-H a b (Real.log z) + Real.log (a + 2 * b * Real.log z) - Real.log z) := by
  have hz : 0 < z := by linarith
  rw [Real.exp_sub, Real.exp_add, Real.exp_log (lin_pos ha hb h), Real.exp_log hz, f, if_neg h]

theorem f_le_low (ha : 0 < a) (hb : 0 < b) (hm : b ≤ a * (a + 1) / 2) (z : ℝ) :
    f a b z ≤ f a b 1 := by
  by_cases h : z < 1
  · rw [f, if_pos h]; exact (f_pos ha hb (lt_irrefl 1)).le
  · rw [f_eq_exp ha hb h, f_eq_exp ha hb (lt_irrefl 1)]
    have hL := Real.log_nonneg (not_lt.1 h)
    set L := Real.log z
    apply Real.exp_le_exp.2
    simp only [Real.log_one, H, mul_zero, zero_mul, add_zero, sub_zero, neg_zero, zero_add]
    have h1 : Real.log (a + 2 * b * L) = Real.log a + Real.log (1 + 2 * b * L / a) := by
      rw [← Real.log_mul ha.ne' (by positivity)]; congr 1; field_simp
    have h2 := Real.log_le_sub_one_of_pos (by positivity : 0 < 1 + 2 * b * L / a)
    have h3 : 2 * b * L / a ≤ (a + 1) * L := by
      rw [div_le_iff₀ ha]; nlinarith
    nlinarith [mul_nonneg hb.le (mul_nonneg hL hL)]

theorem f_le_high (ha : 0 < a) (hb : 0 < b) (hm : a * (a + 1) / 2 < b) (z : ℝ) :
    f a b z ≤ f a b (Real.exp ((-2 * a + Real.sqrt (8 * b + 1) - 1) / (4 * b))) := by
  set w := Real.sqrt (8 * b + 1) with hw
  have hw2 : w ^ 2 = 8 * b + 1 := Real.sq_sqrt (by positivity)
  have hw0 : 0 ≤ w := Real.sqrt_nonneg _
  have hwa : 2 * a + 1 < w := by nlinarith
  set m := (-2 * a + w - 1) / (4 * b) with hmdef
  have hm0 : 0 < m := div_pos (by linarith) (by positivity)
  have hm1 : ¬ Real.exp m < 1 := not_lt.2 (Real.one_le_exp hm0.le)
  by_cases h : z < 1
  · rw [f, if_pos h]; exact (f_pos ha hb hm1).le
  · rw [f_eq_exp ha hb h, f_eq_exp ha hb hm1, Real.log_exp]
    have hL := Real.log_nonneg (not_lt.1 h)
    set L := Real.log z
    apply Real.exp_le_exp.2
    have hus : a + 2 * b * m = (w - 1) / 2 := by rw [hmdef]; field_simp; ring
    have hu : 0 < a + 2 * b * L := by positivity
    have hu2 : 0 < (w - 1) / 2 := by linarith
    have h2 := Real.log_le_sub_one_of_pos (div_pos hu hu2)
    rw [Real.log_div hu.ne' hu2.ne'] at h2
    rw [hus]
    have h3 : (a + 2 * b * L) / ((w - 1) / 2) - 1 = (L - m) * ((w + 1) / 2) := by
      rw [div_sub_one hu2.ne', div_eq_iff hu2.ne']
      have e1 : (w - 1) / 2 = a + 2 * b * m := hus.symm
      have e2 : (w + 1) / 2 * ((w - 1) / 2) = 2 * b := by nlinarith
      have e3 : (L - m) * ((w + 1) / 2) * ((w - 1) / 2) = (L - m) * (2 * b) := by
        rw [← e2]; ring
      rw [e3, e1]; ring
    rw [h3] at h2
    simp only [H]
    nlinarith [mul_nonneg hb.le (sq_nonneg (L - m))]

end Mpsci.benini
