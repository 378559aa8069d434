import Verif.Model.Dist.Exponweib
import Verif.Lemmas.Common
import Verif.Lemmas.Fun.Powm1
import Mathlib.Analysis.SpecialFunctions.Pow.Deriv
import Mathlib.Analysis.SpecialFunctions.Pow.Asymptotics

namespace Mpsci.exponweib

open Classical Num common Filter Topology Set

variable {a c s : ℝ}

noncomputable def w (c z : ℝ) : ℝ := 1 - Real.exp (-(z ^ c))
noncomputable def F (a c z : ℝ) : ℝ := if z < 0 then 0 else w c z ^ a
noncomputable def f (a c z : ℝ) : ℝ :=
  if z ≤ 0 then 0 else a * c * z ^ (c - 1) * w c z ^ (a - 1) * Real.exp (-(z ^ c))
noncomputable def Q (a c p : ℝ) : ℝ := (-Real.log (1 - p ^ (1 / a))) ^ (1 / c)

theorem validate_ok (ha : 0 < a) (hc : 0 < c) (hs : 0 < s) :
    validateParams (fin a) (fin c) (fin s) = .ok (fin a, fin c, fin s) := by
  simp [validateParams, ha.not_ge, hc.not_ge, hs.not_ge]
theorem validate_bad (h : ¬ (0 < a ∧ 0 < c ∧ 0 < s)) :
    validateParams (fin a) (fin c) (fin s) = .error .valueError := by
  by_cases hc : a ≤ 0
  · simp [validateParams, hc]
  by_cases hb : c ≤ 0
  · simp [validateParams, hc, hb]
  have : s ≤ 0 := by
    by_contra hs; exact h ⟨not_le.1 hc, not_le.1 hb, not_le.1 hs⟩
  simp [validateParams, hc, hb, this]

theorem w_nonneg {z : ℝ} (hz : 0 ≤ z) : 0 ≤ w c z := by
  have : Real.exp (-(z ^ c)) ≤ 1 := Real.exp_le_one_iff.2 (by have := Real.rpow_nonneg hz c; linarith)
  rw [w]; linarith
theorem w_pos {z : ℝ} (hz : 0 < z) : 0 < w c z := by
  have : Real.exp (-(z ^ c)) < 1 := Real.exp_lt_one_iff.2 (by have := Real.rpow_pos_of_pos hz c; linarith)
  rw [w]; linarith
theorem w_lt_one (z : ℝ) : w c z < 1 := by
  have := Real.exp_pos (-(z ^ c)); rw [w]; linarith
theorem w_eq (c z : ℝ) : -(Real.exp (-(z ^ c)) - 1) = w c z := by rw [w]; ring

theorem cdf_eval (ha : 0 < a) (hc : 0 < c) (hs : 0 < s) (x : ℝ) :
    cdf (fin x) (fin a) (fin c) (fin s) = .ok (fin (F a c (x / s))) := by
  by_cases h : x < 0
  · simp [cdf, validate_ok ha hc hs, F, h, (scale_lt_zero hs).2 h]
  · have h' : ¬ x / s < 0 := fun h' => h ((scale_lt_zero hs).1 h')
    simp only [cdf, validate_ok ha hc hs, ok_bind, zero_def, fin_lt, h, if_false, fin_div _ hs.ne',
      mp.power_nonneg (not_lt.1 h') hc, neg_fin, mp.expm1_fin, w_eq,
      mp.power_nonneg (w_nonneg (not_lt.1 h')) ha, F, h']
theorem sf_eval (ha : 0 < a) (hc : 0 < c) (hs : 0 < s) (x : ℝ) :
    sf (fin x) (fin a) (fin c) (fin s) = .ok (fin (1 - F a c (x / s))) := by
  by_cases h : x < 0
  · simp [sf, validate_ok ha hc hs, F, h, (scale_lt_zero hs).2 h]
  · have h' : ¬ x / s < 0 := fun h' => h ((scale_lt_zero hs).1 h')
    simp only [sf, validate_ok ha hc hs, ok_bind, zero_def, fin_lt, h, if_false, fin_div _ hs.ne',
      mp.power_nonneg (not_lt.1 h') hc, neg_fin, mp.expm1_fin, w_eq,
      powm1_of_nonneg (w_nonneg (not_lt.1 h')) ha, F, h', pure_eq_ok]
    congr 2; ring
theorem pdf_eval (ha : 0 < a) (hc : 0 < c) (hs : 0 < s) (x : ℝ) (hx : x ∉ ({0} : Set ℝ)) :
    pdf (fin x) (fin a) (fin c) (fin s) = .ok (fin (f a c (x / s) / s)) := by
  rcases lt_or_gt_of_ne (show x ≠ 0 from hx) with h | h
  · simp [pdf, validate_ok ha hc hs, f, h, (scale_le_zero hs).2 h.le]
  · have hz := div_pos h hs
    simp only [pdf, validate_ok ha hc hs, ok_bind, zero_def, one_def, fin_lt, h.not_gt, if_false,
      fin_div _ hs.ne', fin_sub, mp.power_pos hz, neg_fin, mp.expm1_fin, w_eq,
      mp.power_pos (w_pos hz), fin_mul, mp.exp_fin, pure_eq_ok, f, hz.not_ge]
    congr 2; ring
theorem f_pos (ha : 0 < a) (hc : 0 < c) {z : ℝ} (h : 0 < z) : 0 < f a c z := by
  have := w_pos (c := c) h
  rw [f, if_neg h.not_ge]; positivity
theorem f_zero (_ : 0 < a) (_ : 0 < c) (hs : 0 < s) : ∀ x, x ∉ Ici (0:ℝ) → f a c (x / s) / s = 0 := by
  intro x hx
  have : x / s ≤ 0 := (scale_le_zero hs).2 (not_le.1 hx).le
  simp [f, this]
theorem logpdf_pos (ha : 0 < a) (hc : 0 < c) (hs : 0 < s) {x : ℝ} (h : 0 < x) :
    logpdf (fin x) (fin a) (fin c) (fin s) = .ok (fin (Real.log (f a c (x / s) / s))) := by
  have hz := div_pos h hs
  have hw := w_pos (c := c) hz
  rw [f, if_neg hz.not_ge, Real.log_div (by positivity) hs.ne', Real.log_mul (by positivity) (by positivity),
    Real.log_mul (by positivity) (by positivity), Real.log_mul (by positivity) (by positivity),
    Real.log_mul ha.ne' hc.ne', Real.log_exp, Real.log_rpow hz, Real.log_rpow hw]
  simp only [logpdf, validate_ok ha hc hs, ok_bind, zero_def, one_def, fin_lt, h.not_gt, if_false,
    fin_div _ hs.ne', mp.log_pos ha, mp.log_pos hc, mp.log_pos hs, mp.log_pos hz, mp.power_pos hz,
    neg_fin, mp.expm1_fin, w_eq, mp.log_pos hw, fin_sub, fin_mul, fin_add, pure_eq_ok]
  congr 2; ring
theorem logpdf_neg (ha : 0 < a) (hc : 0 < c) (hs : 0 < s) {x : ℝ} (h : x < 0) :
    logpdf (fin x) (fin a) (fin c) (fin s) = .ok ninf := by
  simp [logpdf, validate_ok ha hc hs, h]

theorem isDist_std (ha : 0 < a) (hc : 0 < c) : IsDist (F a c) (f a c) := by
  have hcont : Continuous fun z : ℝ => w c z ^ a := by
    refine (Real.continuous_rpow_const ha.le).comp ?_
    exact continuous_const.sub (Real.continuous_exp.comp (Real.continuous_rpow_const hc.le).neg)
  refine isDist_Ioi (a := 0) (G := fun z => w c z ^ a) ?_ ?_ ?_ ?_ ?_ ?_ ?_ ?_ ?_
  · intro x hx
    rcases hx.eq_or_lt with rfl | hx
    · simp [F, w, Real.zero_rpow hc.ne', Real.zero_rpow ha.ne']
    · simp [F, hx]
  · intro x hx; rw [F, if_neg hx.le.not_gt]
  · simp [w, Real.zero_rpow hc.ne', Real.zero_rpow ha.ne']
  · exact hcont.continuousWithinAt
  · intro x hx; simp [f, hx.le]
  · simp [f]
  · intro x hx
    have h1 : HasDerivAt (fun z : ℝ => -(z ^ c)) (-(c * x ^ (c - 1))) x :=
      (Real.hasDerivAt_rpow_const (Or.inl hx.ne')).neg
    have h2 : HasDerivAt (fun z : ℝ => w c z) (-(Real.exp (-(x ^ c)) * (-(c * x ^ (c - 1))))) x :=
      h1.exp.const_sub 1
    have h3 := h2.rpow_const (p := a) (Or.inl (w_pos (c := c) hx).ne')
    refine h3.congr_deriv ?_
    rw [f, if_neg hx.not_ge]; ring
  · intro x hx; exact (f_pos ha hc hx).le
  · have h1 : Tendsto (fun z : ℝ => -(z ^ c)) atTop atBot :=
      tendsto_neg_atTop_atBot.comp (tendsto_rpow_atTop hc)
    have h2 : Tendsto (fun z : ℝ => w c z) atTop (𝓝 1) := by
      simpa [w] using (Real.tendsto_exp_atBot.comp h1).const_sub 1
    simpa using h2.rpow_const (p := a) (Or.inl one_ne_zero)

theorem isDist (ha : 0 < a) (hc : 0 < c) (hs : 0 < s) :
    IsDist (fun x => F a c (x / s)) (fun x => f a c (x / s) / s) := (isDist_std ha hc).scale hs

theorem q_pos (ha : 0 < a) {p : ℝ} (h0 : 0 < p) (h1 : p < 1) :
    0 < 1 - p ^ (1 / a) ∧ 1 - p ^ (1 / a) < 1 := by
  have h2 : p ^ (1 / a) < 1 := Real.rpow_lt_one h0.le h1 (by positivity)
  have h3 : 0 < p ^ (1 / a) := by positivity
  constructor <;> linarith
theorem log_q_pos (ha : 0 < a) {p : ℝ} (h0 : 0 < p) (h1 : p < 1) :
    0 < -Real.log (1 - p ^ (1 / a)) := by
  have := q_pos ha h0 h1
  have := Real.log_neg this.1 this.2
  linarith

theorem invcdf_eval (ha : 0 < a) (hc : 0 < c) (hs : 0 < s) {p : ℝ} (h0 : 0 < p) (h1 : p < 1) :
    invcdf (fin p) (fin a) (fin c) (fin s) = .ok (fin (s * Q a c p)) := by
  have h2 : -1 < -(p ^ (1 / a)) := by have := (q_pos ha h0 h1).1; linarith
  simp only [invcdf, validateP_ok h0.le h1.le, validate_ok ha hc hs, ok_bind, one_def,
    fin_div _ ha.ne', fin_div _ hc.ne', mp.power_pos h0, neg_fin, mp.log1p_pos h2,
    ← sub_eq_add_neg, mp.power_pos (log_q_pos ha h0 h1), fin_mul, Q, pure_eq_ok]
theorem invsf_eval (ha : 0 < a) (hc : 0 < c) (hs : 0 < s) {p : ℝ} (h0 : 0 < p) (h1 : p < 1) :
    invsf (fin p) (fin a) (fin c) (fin s) = .ok (fin (s * Q a c (1 - p))) := by
  have hp : 0 < 1 - p := by linarith
  have e : -(Real.exp (Real.log (1 - p) / a) - 1) = 1 - (1 - p) ^ (1 / a) := by
    rw [Real.rpow_def_of_pos hp, mul_one_div]; ring
  simp only [invsf, validateP_ok h0.le h1.le, validate_ok ha hc hs, ok_bind, one_def,
    fin_div _ ha.ne', fin_div _ hc.ne', neg_fin, mp.log1p_pos (show -1 < -p by linarith),
    ← sub_eq_add_neg, mp.expm1_fin, e, mp.log_pos (q_pos ha hp (by linarith)).1,
    mp.power_pos (log_q_pos ha hp (by linarith)), fin_mul, Q, pure_eq_ok]

theorem F_Q (ha : 0 < a) (hc : 0 < c) (_ : 0 < s) {p : ℝ} (h0 : 0 < p) (h1 : p < 1) :
    Q a c p ∈ Ioi (0:ℝ) ∧ F a c (Q a c p) = p := by
  have hq := log_q_pos ha h0 h1
  have hQ : 0 < Q a c p := Real.rpow_pos_of_pos hq _
  refine ⟨hQ, ?_⟩
  rw [F, if_neg hQ.le.not_gt, w, Q, fun_.rpow_inv_rpow hq.le hc.ne', neg_neg,
    Real.exp_log (q_pos ha h0 h1).1, sub_sub_cancel, fun_.rpow_inv_rpow h0.le ha.ne']

theorem Q_F (ha : 0 < a) (hc : 0 < c) (_ : 0 < s) {z : ℝ} (hz : z ∈ Ioi (0:ℝ)) :
    0 < F a c z ∧ F a c z < 1 ∧ Q a c (F a c z) = z := by
  have h : 0 < z := hz
  have hw := w_pos (c := c) h
  rw [F, if_neg h.le.not_gt]
  refine ⟨by positivity, Real.rpow_lt_one hw.le (w_lt_one z) ha, ?_⟩
  rw [Q, fun_.rpow_rpow_inv hw.le ha.ne', w, sub_sub_cancel, Real.log_exp, neg_neg,
    fun_.rpow_rpow_inv h.le hc.ne']

end Mpsci.exponweib
