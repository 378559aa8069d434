import Verif.Model.Dist.Weibull
import Verif.Lemmas.Common
import Verif.Lemmas.DistTrans
import Mathlib.Analysis.SpecialFunctions.Pow.Deriv
import Mathlib.Analysis.SpecialFunctions.Pow.Asymptotics

namespace Mpsci.weibull_common
open Classical Num

theorem validate_ok {k s : ℝ} (loc : Num) (hk : 0 < k) (hs : 0 < s) :
    validateParams (fin k) loc (fin s) = .ok (fin k, loc, fin s) := by
  simp [validateParams, hk.not_ge, hs.not_ge]

theorem validate_bad {k s : ℝ} (loc : Num) (h : k ≤ 0 ∨ s ≤ 0) :
    validateParams (fin k) loc (fin s) = .error .valueError := by
  by_cases hk : k ≤ 0
  · simp [validateParams, hk]
  · simp [validateParams, hk, h.resolve_left hk]

end Mpsci.weibull_common

namespace Mpsci.weibull_min

open Classical Num weibull_common common Filter Topology Set

/-- The textbook distribution function. -/
noncomputable def F (k loc s x : ℝ) : ℝ :=
  if x ≤ loc then 0 else 1 - Real.exp (-((x - loc) / s) ^ k)

/-- The textbook density. -/
noncomputable def f (k loc s x : ℝ) : ℝ :=
  if x ≤ loc then (if x = loc ∧ k = 1 then 1 / s else 0)
  else k / s * ((x - loc) / s) ^ (k - 1) * Real.exp (-((x - loc) / s) ^ k)

variable {k loc s : ℝ}

theorem cdf_eval (hk : 0 < k) (hs : 0 < s) (x : ℝ) :
    cdf (fin x) (fin k) (fin loc) (fin s) = .ok (fin (F k loc s x)) := by
  by_cases h : x ≤ loc
  · simp [cdf, validate_ok _ hk hs, F, h]
  · have h' : 0 < (x - loc) / s := div_pos (by linarith) hs
    simp [cdf, validate_ok _ hk hs, F, h, fin_div _ hs.ne', mp.power_pos h']

theorem sf_eval (hk : 0 < k) (hs : 0 < s) (x : ℝ) :
    sf (fin x) (fin k) (fin loc) (fin s) = .ok (fin (1 - F k loc s x)) := by
  by_cases h : x ≤ loc
  · simp [sf, validate_ok _ hk hs, F, h]
  · have h' : 0 < (x - loc) / s := div_pos (by linarith) hs
    simp [sf, validate_ok _ hk hs, F, h, fin_div _ hs.ne', mp.power_pos h']

theorem logpdf_gt (hk : 0 < k) (hs : 0 < s) {x : ℝ} (h : loc < x) :
    logpdf (fin x) (fin k) (fin loc) (fin s) = .ok (fin (Real.log (f k loc s x))) := by
  have h1 : 0 < x - loc := by linarith
  have h' : 0 < (x - loc) / s := div_pos h1 hs
  simp only [logpdf, validate_ok _ hk hs, ok_bind, fin_eq, h.ne', if_false, fin_lt, h.not_gt,
    fin_sub, fin_div _ hs.ne', mp.log_pos hk, mp.log_pos hs, mp.log_pos h1, mp.power_pos h',
    pure_eq_ok, fin_mul, fin_add, one_def]
  congr 2
  rw [f, if_neg h.not_ge, Real.log_mul (by positivity) (Real.exp_ne_zero _), Real.log_exp,
    Real.log_mul (by positivity) (by positivity), Real.log_div hk.ne' hs.ne', Real.log_rpow h',
    Real.log_div h1.ne' hs.ne']
  ring

theorem f_pos (hk : 0 < k) (hs : 0 < s) {x : ℝ} (h : loc < x) : 0 < f k loc s x := by
  have h1 : 0 < x - loc := by linarith
  have h' : 0 < (x - loc) / s := div_pos h1 hs
  rw [f, if_neg h.not_ge]; positivity

theorem pdf_eval (hk : 0 < k) (hs : 0 < s) {x : ℝ} (hx : x = loc → 1 ≤ k) :
    pdf (fin x) (fin k) (fin loc) (fin s) = .ok (fin (f k loc s x)) := by
  rcases lt_trichotomy x loc with h | h | h
  · simp [pdf, validate_ok _ hk hs, h.ne, h, f, h.le]
  · subst h
    have h1 := hx rfl
    rcases h1.eq_or_lt with h2 | h2
    · subst h2
      simp [pdf, validate_ok _ hk hs, f, fin_div _ hs.ne']
    · simp [pdf, validate_ok _ hk hs, f, h2.ne', h1]
  · simp [pdf, validate_ok _ hk hs, h.ne', h.not_gt, logpdf_gt hk hs h,
      Real.exp_log (f_pos hk hs h)]

theorem logpdf_eval (hk : 0 < k) (hs : 0 < s) {x : ℝ} (hx : x = loc → 1 ≤ k) :
    logpdf (fin x) (fin k) (fin loc) (fin s) =
      .ok (if f k loc s x = 0 then ninf else fin (Real.log (f k loc s x))) := by
  rcases lt_trichotomy x loc with h | h | h
  · simp [logpdf, validate_ok _ hk hs, h.ne, h, f, h.le]
  · subst h
    have h1 := hx rfl
    rcases h1.eq_or_lt with h2 | h2
    · subst h2
      simp [logpdf, validate_ok _ hk hs, f, mp.log_pos hs, hs.ne']
    · simp [logpdf, validate_ok _ hk hs, f, h2.ne', h1]
  · rw [logpdf_gt hk hs h, if_neg (f_pos hk hs h).ne']

theorem isDist_std (hk : 0 < k) :
    IsDist (fun z => if z ≤ 0 then 0 else 1 - Real.exp (-z ^ k))
      (fun z => if z ≤ 0 then (if z = 0 ∧ k = 1 then 1 else 0)
        else k * z ^ (k - 1) * Real.exp (-z ^ k)) := by
  refine isDist_Ioi (a := 0) (G := fun z => 1 - Real.exp (-z ^ k)) ?_ ?_ ?_ ?_ ?_ ?_ ?_ ?_ ?_
  · intro x hx; simp [hx]
  · intro x hx; simp [not_le.2 hx]
  · simp [hk.ne']
  · refine ContinuousAt.continuousWithinAt ?_
    have : ContinuousAt (fun z : ℝ => z ^ k) 0 := Real.continuousAt_rpow_const 0 k (Or.inr hk.le)
    exact continuousAt_const.sub (Real.continuous_exp.continuousAt.comp this.neg)
  · intro x hx; simp [hx.le, hx.ne]
  · simp only [le_refl, if_true]; split_ifs <;> norm_num
  · intro x hx
    have h1 : HasDerivAt (fun z : ℝ => z ^ k) (k * x ^ (k - 1)) x :=
      Real.hasDerivAt_rpow_const (Or.inl hx.ne')
    have h2 : HasDerivAt (fun z : ℝ => 1 - Real.exp (-z ^ k))
        (-(Real.exp (-x ^ k) * -(k * x ^ (k - 1)))) x := (h1.neg.exp).const_sub 1
    simp only [not_le.2 hx, if_false]
    convert h2 using 1
    ring
  · intro x hx; simp only [not_le.2 hx, if_false]; positivity
  · have h1 : Tendsto (fun z : ℝ => z ^ k) atTop atTop := tendsto_rpow_atTop hk
    have h2 := Real.tendsto_exp_neg_atTop_nhds_zero.comp h1
    simpa [Function.comp_def] using (tendsto_const_nhds (x := (1:ℝ))).sub h2

theorem isDist (hk : 0 < k) (hs : 0 < s) : IsDist (F k loc s) (f k loc s) := by
  have h := (isDist_std hk).affine loc hs
  have e1 : ∀ x, (x - loc) / s ≤ 0 ↔ x ≤ loc := fun x => by
    rw [div_le_iff₀ hs]; simp
  have e2 : ∀ x, (x - loc) / s = 0 ↔ x = loc := fun x => by
    rw [div_eq_zero_iff, sub_eq_zero]; simp [hs.ne']
  convert h using 1
  · ext x; simp only [F, e1]
  · ext x; simp only [f, e1, e2]
    split_ifs <;> first | rfl | simp | ring

/-- The textbook quantile function. -/
noncomputable def Q (k loc s p : ℝ) : ℝ := s * (-Real.log (1 - p)) ^ (1 / k) + loc

theorem neg_log_pos {p : ℝ} (h0 : 0 < p) (h1 : p < 1) : 0 < -Real.log (1 - p) := by
  have := Real.log_neg (x := 1 - p) (by linarith) (by linarith); linarith

theorem invcdf_eval (hk : 0 < k) (hs : 0 < s) {p : ℝ} (h0 : 0 < p) (h1 : p < 1) :
    invcdf (fin p) (fin k) (fin loc) (fin s) = .ok (fin (Q k loc s p)) := by
  have hlog : mp.log1p (fin (-p)) = .ok (fin (Real.log (1 - p))) := by
    rw [mp.log1p_pos (by linarith)]; rfl
  simp [invcdf, validateP_ok h0.le h1.le, validate_ok _ hk hs, hlog, fin_div _ hk.ne',
    mp.power_pos (neg_log_pos h0 h1), Q]

theorem invsf_eval (hk : 0 < k) (hs : 0 < s) {p : ℝ} (h0 : 0 < p) (h1 : p < 1) :
    invsf (fin p) (fin k) (fin loc) (fin s) = .ok (fin (Q k loc s (1 - p))) := by
  have := neg_log_pos (p := 1 - p) (by linarith) (by linarith)
  rw [sub_sub_cancel] at this
  simp [invsf, validateP_ok h0.le h1.le, validate_ok _ hk hs, mp.log_pos h0, fin_div _ hk.ne',
    mp.power_pos this, Q]

theorem F_Q (hk : 0 < k) (hs : 0 < s) {p : ℝ} (h0 : 0 < p) (h1 : p < 1) :
    Q k loc s p ∈ Ioi loc ∧ F k loc s (Q k loc s p) = p := by
  have hl := neg_log_pos h0 h1
  have hx : loc < Q k loc s p := by
    have : 0 < s * (-Real.log (1 - p)) ^ (1 / k) := by positivity
    rw [Q]; linarith
  refine ⟨hx, ?_⟩
  rw [F, if_neg hx.not_ge, Q, add_sub_cancel_right,
      mul_div_cancel_left₀ _ hs.ne', ← Real.rpow_mul hl.le, one_div, inv_mul_cancel₀ hk.ne',
      Real.rpow_one, neg_neg, Real.exp_log (show (0:ℝ) < 1 - p by linarith)]
  ring

theorem Q_F (hk : 0 < k) (hs : 0 < s) {x : ℝ} (hx : x ∈ Ioi loc) :
    0 < F k loc s x ∧ F k loc s x < 1 ∧ Q k loc s (F k loc s x) = x := by
  have h1 : 0 < x - loc := by simpa using hx
  have hz : 0 < (x - loc) / s := div_pos h1 hs
  have he : Real.exp (-((x - loc) / s) ^ k) < 1 := by
    rw [Real.exp_lt_one_iff]; have : 0 < ((x - loc) / s) ^ k := by positivity
    linarith
  have hF : F k loc s x = 1 - Real.exp (-((x - loc) / s) ^ k) := by
    rw [F, if_neg (not_le.2 hx)]
  refine ⟨by rw [hF]; linarith, by rw [hF]; linarith [Real.exp_pos (-((x - loc) / s) ^ k)], ?_⟩
  rw [hF, Q, sub_sub_cancel, Real.log_exp, neg_neg, ← Real.rpow_mul hz.le,
      mul_one_div, div_self hk.ne', Real.rpow_one]
  field_simp; ring

end Mpsci.weibull_min
