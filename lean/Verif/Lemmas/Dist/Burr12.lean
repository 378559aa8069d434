import Verif.Model.Dist.Burr12
import Verif.Lemmas.Common
import Verif.Lemmas.Helpers
import Verif.Lemmas.Ineq
import Mathlib.Analysis.SpecialFunctions.Pow.Deriv
import Mathlib.Analysis.SpecialFunctions.Pow.Asymptotics

namespace Mpsci.burr12

open Classical Num common Filter Topology Set

variable {c d s : ℝ}

noncomputable def F (c d z : ℝ) : ℝ := if z ≤ 0 then 0 else 1 - (1 + z ^ c) ^ (-d)
noncomputable def f (c d z : ℝ) : ℝ := if z ≤ 0 then 0 else c * d * z ^ (c - 1) / (1 + z ^ c) ^ (d + 1)
noncomputable def Q (c d p : ℝ) : ℝ := ((1 - p) ^ (-1 / d) - 1) ^ (1 / c)

theorem validate_ok (hc : 0 < c) (hd : 0 < d) (hs : 0 < s) :
    validateParams (fin c) (fin d) (fin s) = .ok (fin c, fin d, fin s) := by
  simp [validateParams, hc.not_ge, hd.not_ge, hs.not_ge]
theorem validate_bad (h : ¬ (0 < c ∧ 0 < d ∧ 0 < s)) :
    validateParams (fin c) (fin d) (fin s) = .error .valueError := by
  by_cases hc : c ≤ 0
  · simp [validateParams, hc]
  by_cases hd : d ≤ 0
  · simp [validateParams, hc, hd]
  have : s ≤ 0 := by
    by_contra hs; exact h ⟨not_le.1 hc, not_le.1 hd, not_le.1 hs⟩
  simp [validateParams, hc, hd, this]

theorem one_add_pos {z c : ℝ} (hz : 0 < z) : 0 < 1 + z ^ c := by
  have := Real.rpow_pos_of_pos hz c; linarith

theorem sf_eval (hc : 0 < c) (hd : 0 < d) (hs : 0 < s) (x : ℝ) :
    sf (fin x) (fin c) (fin d) (fin s) = .ok (fin (1 - F c d (x / s))) := by
  by_cases h : x ≤ 0
  · simp [sf, validate_ok hc hd hs, F, h, scale_le_zero hs]
  · have hz : 0 < x / s := div_pos (not_le.1 h) hs
    simp [sf, validate_ok hc hd hs, F, h, hz.not_ge, fin_div _ hs.ne', mp.power_pos hz,
      mp.power_pos (one_add_pos (c := c) hz)]
theorem cdf_eval (hc : 0 < c) (hd : 0 < d) (hs : 0 < s) (x : ℝ) :
    cdf (fin x) (fin c) (fin d) (fin s) = .ok (fin (F c d (x / s))) := by
  by_cases h : x ≤ 0
  · simp [cdf, validate_ok hc hd hs, F, h, scale_le_zero hs]
  · simp [cdf, validate_ok hc hd hs, h, sf_eval hc hd hs]
theorem pdf_eval (hc : 0 < c) (hd : 0 < d) (hs : 0 < s) (x : ℝ) :
    pdf (fin x) (fin c) (fin d) (fin s) = .ok (fin (f c d (x / s) / s)) := by
  by_cases h : x ≤ 0
  · simp [pdf, validate_ok hc hd hs, f, h, scale_le_zero hs]
  · have hz : 0 < x / s := div_pos (not_le.1 h) hs
    have h2 := one_add_pos (c := c) hz
    have : (1 + (x / s) ^ c) ^ (d + 1) ≠ 0 := by positivity
    simp only [pdf, validate_ok hc hd hs, ok_bind, f, zero_def, one_def, fin_le, h, if_false,
      hz.not_ge, fin_div _ hs.ne', fin_sub, fin_mul, mp.power_pos hz, fin_add, mp.power_pos h2,
      fin_div _ this]
    congr 2; ring
theorem f_pos (hc : 0 < c) (hd : 0 < d) {z : ℝ} (h : 0 < z) : 0 < f c d z := by
  have := one_add_pos (c := c) h
  rw [f, if_neg h.not_ge]; positivity
theorem f_zero (_ : 0 < c) (_ : 0 < d) (hs : 0 < s) : ∀ x, x ∉ Ici (0:ℝ) → f c d (x / s) / s = 0 := by
  intro x hx
  have : x / s ≤ 0 := (scale_le_zero hs).2 (not_le.1 hx).le
  simp [f, this]
theorem logpdf_pos (hc : 0 < c) (hd : 0 < d) (hs : 0 < s) {x : ℝ} (h : 0 < x) :
    logpdf (fin x) (fin c) (fin d) (fin s) = .ok (fin (Real.log (f c d (x / s) / s))) := by
  have hz : 0 < x / s := div_pos h hs
  have h1 : 0 < (x / s) ^ c := by positivity
  have h2 := one_add_pos (c := c) hz
  have e : Real.log (f c d (x / s) / s) = Real.log c + Real.log d + (c - 1) * (Real.log x - Real.log s)
      - (d + 1) * Real.log (1 + (x / s) ^ c) - Real.log s := by
    rw [f, if_neg hz.not_ge, Real.log_div (by positivity) hs.ne', Real.log_div (by positivity) (by positivity),
      Real.log_mul (by positivity) (by positivity), Real.log_mul hc.ne' hd.ne', Real.log_rpow hz, Real.log_rpow h2,
      Real.log_div h.ne' hs.ne']
  rw [e]
  simp only [logpdf, validate_ok hc hd hs, ok_bind, zero_def, one_def, ofNat_def, fin_le, h.not_ge,
    if_false, fin_div _ hs.ne', mp.log_pos hc, mp.log_pos hd, mp.log_pos hs, mp.log_pos h, mp.power_pos hz,
    mp.log1p_pos (by linarith : (-1:ℝ) < (x / s) ^ c), fin_sub, fin_mul, fin_add, pure_eq_ok]
  congr 2; ring
theorem logpdf_neg (hc : 0 < c) (hd : 0 < d) (hs : 0 < s) {x : ℝ} (h : x ≤ 0) :
    logpdf (fin x) (fin c) (fin d) (fin s) = .ok ninf := by
  simp [logpdf, validate_ok hc hd hs, h]
theorem pdf_returns (hc : 0 < c) (hd : 0 < d) (hs : 0 < s) (x : ℝ) :
    Spec.Returns (pdf (fin x) (fin c) (fin d) (fin s)) := ⟨_, pdf_eval hc hd hs x⟩
theorem logpdf_returns (hc : 0 < c) (hd : 0 < d) (hs : 0 < s) (x : ℝ) :
    Spec.Returns (logpdf (fin x) (fin c) (fin d) (fin s)) := by
  rcases le_or_gt x 0 with h | h
  · exact ⟨_, logpdf_neg hc hd hs h⟩
  · exact ⟨_, logpdf_pos hc hd hs h⟩

theorem isDist_std (hc : 0 < c) (hd : 0 < d) : IsDist (F c d) (f c d) := by
  refine isDist_Ioi (a := 0) (G := fun z => 1 - (1 + z ^ c) ^ (-d)) ?_ ?_ ?_ ?_ ?_ ?_ ?_ ?_ ?_
  · intro x hx; simp [F, hx]
  · intro x hx; rw [F, if_neg hx.not_ge]
  · simp [Real.zero_rpow hc.ne']
  · have h : ContinuousAt (fun z : ℝ => z ^ c) 0 := Real.continuousAt_rpow_const _ _ (Or.inr hc.le)
    refine (ContinuousAt.sub continuousAt_const ((continuousAt_const.add h).rpow_const ?_)).continuousWithinAt
    left; simp [Real.zero_rpow hc.ne']
  · intro x hx; simp [f, hx.le]
  · simp [f]
  · intro x hx
    have h0 := one_add_pos (c := c) hx
    have h1 : HasDerivAt (fun z : ℝ => 1 + z ^ c) (c * x ^ (c - 1)) x :=
      (Real.hasDerivAt_rpow_const (Or.inl hx.ne')).const_add 1
    have h2 : HasDerivAt (fun z : ℝ => (1 + z ^ c) ^ (-d)) (c * x ^ (c - 1) * (-d) * (1 + x ^ c) ^ (-d - 1)) x :=
      h1.rpow_const (Or.inl h0.ne')
    refine (h2.const_sub 1).congr_deriv ?_
    rw [f, if_neg hx.not_ge, show -d - 1 = -(d + 1) by ring, Real.rpow_neg h0.le]
    ring
  · intro x hx; exact (f_pos hc hd hx).le
  · have h : Tendsto (fun z : ℝ => 1 + z ^ c) atTop atTop :=
      tendsto_atTop_add_const_left _ _ (tendsto_rpow_atTop hc)
    have h2 := ((tendsto_rpow_neg_atTop hd).comp h).const_sub 1
    simpa [Function.comp_def] using h2

theorem isDist (hc : 0 < c) (hd : 0 < d) (hs : 0 < s) :
    IsDist (fun x => F c d (x / s)) (fun x => f c d (x / s) / s) := (isDist_std hc hd).scale hs

theorem q_pos (hd : 0 < d) {p : ℝ} (h0 : 0 < p) (h1 : p < 1) : 0 < p ^ (-1 / d) - 1 := by
  have : 1 < p ^ (-1 / d) := Real.one_lt_rpow_of_pos_of_lt_one_of_neg h0 h1 (by
    rw [neg_div]; exact neg_neg_of_pos (one_div_pos.2 hd))
  linarith

theorem invcdf_eval (hc : 0 < c) (hd : 0 < d) (hs : 0 < s) {p : ℝ} (h0 : 0 < p) (h1 : p < 1) :
    invcdf (fin p) (fin c) (fin d) (fin s) = .ok (fin (s * Q c d p)) := by
  have hp : 0 < 1 - p := by linarith
  have hq := q_pos hd hp (by linarith)
  simp only [invcdf, validateP_ok h0.le h1.le, validate_ok hc hd hs, ok_bind, one_def, neg_fin,
    fin_div _ hc.ne', fin_div _ hd.ne', fin_sub, mp.powm1_pos hp, mp.power_pos hq, fin_mul, Q,
    pure_eq_ok]
theorem invsf_eval (hc : 0 < c) (hd : 0 < d) (hs : 0 < s) {p : ℝ} (h0 : 0 < p) (h1 : p < 1) :
    invsf (fin p) (fin c) (fin d) (fin s) = .ok (fin (s * Q c d (1 - p))) := by
  have hq := q_pos hd h0 h1
  simp only [invsf, validateP_ok h0.le h1.le, validate_ok hc hd hs, ok_bind, one_def, neg_fin,
    fin_div _ hc.ne', fin_div _ hd.ne', fin_sub, mp.powm1_pos h0, mp.power_pos hq, fin_mul, Q,
    pure_eq_ok, sub_sub_cancel]

theorem F_Q (hc : 0 < c) (hd : 0 < d) (_ : 0 < s) {p : ℝ} (h0 : 0 < p) (h1 : p < 1) :
    Q c d p ∈ Ioi (0:ℝ) ∧ F c d (Q c d p) = p := by
  have hp : 0 < 1 - p := by linarith
  have hq := q_pos hd hp (by linarith)
  have hQ : 0 < Q c d p := Real.rpow_pos_of_pos hq _
  refine ⟨hQ, ?_⟩
  have e : -1 / d * -d = 1 := by field_simp
  rw [F, if_neg hQ.not_ge, Q, ← Real.rpow_mul hq.le, one_div_mul_cancel hc.ne', Real.rpow_one,
    add_sub_cancel, ← Real.rpow_mul hp.le, e, Real.rpow_one]
  ring

theorem Q_F (hc : 0 < c) (hd : 0 < d) (_ : 0 < s) {z : ℝ} (hz : z ∈ Ioi (0:ℝ)) :
    0 < F c d z ∧ F c d z < 1 ∧ Q c d (F c d z) = z := by
  have h : 0 < z := hz
  have h2 := one_add_pos (c := c) h
  have h3 : 1 < 1 + z ^ c := by have := Real.rpow_pos_of_pos h c; linarith
  rw [F, if_neg h.not_ge]
  have h4 : (1 + z ^ c) ^ (-d) < 1 := Real.rpow_lt_one_of_one_lt_of_neg h3 (by linarith)
  have h5 : 0 < (1 + z ^ c) ^ (-d) := by positivity
  refine ⟨by linarith, by linarith, ?_⟩
  have e : -d * (-1 / d) = 1 := by field_simp
  rw [Q, sub_sub_cancel, ← Real.rpow_mul h2.le, e, Real.rpow_one, add_sub_cancel_left,
    ← Real.rpow_mul h.le, mul_one_div_cancel hc.ne', Real.rpow_one]

theorem mode_eval (hc : 1 < c) (hd : 0 < d) (hs : 0 < s) : mode (fin c) (fin d) (fin s) =
    .ok (fin (s * ((c - 1) / (d * c + 1)) ^ (1 / c))) := by
  have h0 : 0 < c := by linarith
  have h1 : 0 < d * c + 1 := by positivity
  have h2 : 0 < (c - 1) / (d * c + 1) := div_pos (by linarith) h1
  simp only [mode, validate_ok h0 hd hs, ok_bind, one_def, fin_le, hc.not_ge, if_false, fin_sub,
    fin_mul, fin_add, fin_div _ h1.ne', fin_div _ h0.ne', mp.power_pos h2, pure_eq_ok]

theorem f_le (hc : 1 < c) (hd : 0 < d) (z : ℝ) :
    f c d z ≤ f c d (((c - 1) / (d * c + 1)) ^ (1 / c)) := by
  have h0 : 0 < c := by linarith
  have h1 : 0 < d * c + 1 := by positivity
  have h2 : 0 < (c - 1) / (d * c + 1) := div_pos (by linarith) h1
  have key : ∀ z : ℝ, 0 < z → f c d z = c * d * ((z ^ c) ^ ((c - 1) / c) / (1 + z ^ c) ^ ((c - 1) / c + (d + 1 / c))) := by
    intro z hz
    have e : c * ((c - 1) / c) = c - 1 := by field_simp
    have e2 : (c - 1) / c + (d + 1 / c) = d + 1 := by field_simp; ring
    rw [f, if_neg hz.not_ge, ← Real.rpow_mul hz.le, e, e2, mul_div_assoc]
  have hm : 0 < ((c - 1) / (d * c + 1)) ^ (1 / c) := by positivity
  rcases le_or_gt z 0 with h | h
  · rw [show f c d z = 0 by simp [f, h]]; exact (f_pos h0 hd hm).le
  · rw [key z h, key _ hm]
    have hu : 0 < z ^ c := by positivity
    have := rpow_div_one_add_le (a := (c - 1) / c) (b := d + 1 / c) (div_pos (by linarith) h0) (by positivity) hu
    have e : (c - 1) / c / (d + 1 / c) = (((c - 1) / (d * c + 1)) ^ (1 / c)) ^ c := by
      rw [← Real.rpow_mul h2.le, one_div_mul_cancel h0.ne', Real.rpow_one]; field_simp
    rw [e] at this
    exact mul_le_mul_of_nonneg_left this (by positivity)

end Mpsci.burr12
