import Verif.Model.Dist.GenHyperbolic
import Verif.Lemmas.GenHypDist

namespace Mpsci.genhyperbolic

open Classical Num common Filter Topology Set MeasureTheory gh

variable {p a b loc s : ℝ}

theorem validate_le (h : |b| < a ∨ (0 < a ∧ |b| = a ∧ p < 0)) (hs : 0 < s) :
    validateParams (fin p) (fin a) (fin b) (fin loc) (fin s) = .ok (fin p, fin a, fin b, fin loc, fin s) := by
  have h1 : ¬ a ≤ 0 := by rcases h with h | h <;> [exact (a_pos h).not_ge; exact h.1.not_ge]
  have h2 : ¬ (a < |b| ∨ (|b| = a ∧ 0 ≤ p)) := by
    rintro (h3 | ⟨h3, h4⟩) <;> rcases h with h | ⟨h5, h6, h7⟩ <;> linarith
  simp only [validateParams, validateLocScale_ok _ hs, ok_bind, zero_def, fin_le, h1, if_false, abs_fin, gt_iff, ge_iff, fin_lt, fin_eq, h2]
theorem validate_ok (h : |b| < a) (hs : 0 < s) : validateParams (fin p) (fin a) (fin b) (fin loc) (fin s) = .ok (fin p, fin a, fin b, fin loc, fin s) :=
  validate_le (Or.inl h) hs
theorem validate_bad (h : ¬ ((|b| < a ∨ (0 < a ∧ |b| = a ∧ p < 0)) ∧ 0 < s)) :
    validateParams (fin p) (fin a) (fin b) (fin loc) (fin s) = .error .valueError := by
  rcases le_or_gt s 0 with hs | hs
  · simp [validateParams, validateLocScale_bad _ hs]
  by_cases ha : a ≤ 0
  · simp [validateParams, validateLocScale_ok _ hs, ha]
  have h2 : a < |b| ∨ (|b| = a ∧ 0 ≤ p) := by
    rcases lt_trichotomy |b| a with h1 | h1 | h1
    · exact absurd ⟨Or.inl h1, hs⟩ h
    · refine Or.inr ⟨h1, not_lt.1 fun hp => h ⟨Or.inr ⟨not_le.1 ha, h1, hp⟩, hs⟩⟩
    · exact Or.inl h1
  simp only [validateParams, validateLocScale_ok _ hs, ok_bind, zero_def, fin_le, ha, if_false, abs_fin, gt_iff, ge_iff, fin_lt, fin_eq, h2, if_true]

theorem isDist (h : |b| < a) (hs : 0 < s) : IsDist (fun x => F p a b ((x - loc) / s)) (fun x => f p a b ((x - loc) / s) / s) :=
  (gh.isDist h).affine loc hs

theorem log_f (h : |b| < a) (z : ℝ) : Real.log (f p a b z) = p / 2 * (Real.log (a + b) + Real.log (a - b)) + b * z +
    Real.log (besselKR (p - 1 / 2) (a * √(1 + z ^ 2))) - 1 / 2 * Real.log (2 * Real.pi) - (p - 1 / 2) * Real.log a -
    Real.log (besselKR p (d a b)) + 1 / 2 * (p - 1 / 2) * Real.log (1 + z ^ 2) := by
  have h1 := d_pos h
  have h2 := a_pos h
  have h3 := kI.K_pos h1 p
  have h4 := kI.K_pos (show 0 < a * √(1 + z ^ 2) by positivity) (p - 1 / 2)
  have h5 : 0 < 2 * Real.pi := by have := Real.pi_pos; positivity
  have h6 : 0 < √(2 * Real.pi) := Real.sqrt_pos.2 h5
  have h7 : 0 < a ^ (p - 1 / 2) := Real.rpow_pos_of_pos h2 _
  have h8 : (0:ℝ) < 1 + z ^ 2 := by positivity
  have h9 : 0 < (1 + z ^ 2) ^ ((p - 1 / 2) / 2) := Real.rpow_pos_of_pos h8 _
  have h10 : 0 < d a b ^ p := Real.rpow_pos_of_pos h1 _
  obtain ⟨h11, h12⟩ := abs_lt.1 h
  have e : Real.log (d a b) = (Real.log (a + b) + Real.log (a - b)) / 2 := by
    rw [d, Real.log_sqrt (prod_pos h).le, Real.log_mul (by linarith) (by linarith)]
  rw [f, Real.log_div (by positivity) (by positivity), Real.log_mul (by positivity) h9.ne', Real.log_mul (by positivity) h4.ne',
    Real.log_mul h10.ne' (Real.exp_pos _).ne', Real.log_exp, Real.log_rpow h1, Real.log_rpow h8, Real.log_mul (by positivity) h3.ne',
    Real.log_mul h6.ne' h7.ne', Real.log_sqrt h5.le, Real.log_rpow h2, e]
  ring

theorem logpdf_eval (h : |b| < a) (hs : 0 < s) (x : ℝ) : logpdf (fin x) (fin p) (fin a) (fin b) (fin loc) (fin s) =
    .ok (fin (Real.log (f p a b ((x - loc) / s) / s))) := by
  obtain ⟨h11, h12⟩ := abs_lt.1 h
  have h1 := d_pos h
  have h2 := a_pos h
  have h3 := kI.K_pos h1 p
  rw [Real.log_div (f_pos h _).ne' hs.ne', log_f h]
  simp only [logpdf, validate_ok h hs, ok_bind, fin_sub, fin_div _ hs.ne', mp.ipow_fin]
  generalize (x - loc) / s = z
  have h4 := kI.K_pos (show 0 < a * √(1 + z ^ 2) by positivity) (p - 1 / 2)
  have h5 : 0 < 2 * Real.pi := by have := Real.pi_pos; positivity
  simp only [ofNat_def, one_def, fin_add, fin_sub, fin_div _ (two_ne_zero (α := ℝ)), ok_bind, mp.log_pos (show 0 < a + b by linarith),
    mp.log_pos (show 0 < a - b by linarith), mp.sqrt_nonneg (show 0 ≤ 1 + z ^ 2 by positivity), fin_mul,
    mp.besselkR_pos _ (show 0 < a * √(1 + z ^ 2) by positivity), mp.log_pos h4, mp.pi, mp.log_pos h5, mp.log_pos h2, mp.sqrt_nonneg (prod_pos h).le,
    mp.log1p_pos (show -1 < z ^ 2 by nlinarith [sq_nonneg z]), mp.log_pos hs, neg_fin]
  rw [show √((a + b) * (a - b)) = d a b from rfl]
  simp only [mp.besselkR_pos p h1, ok_bind, mp.log_pos h3, neg_fin, mp.fsum_cons, mp.fsum_nil, fin_add, zero_def, pure_eq_ok]
  congr 2; ring

theorem pdf_eval (h : |b| < a) (hs : 0 < s) (x : ℝ) : pdf (fin x) (fin p) (fin a) (fin b) (fin loc) (fin s) =
    .ok (fin (f p a b ((x - loc) / s) / s)) := by
  rw [pdf, logpdf_eval h hs]
  simp only [ok_bind, mp.exp_fin, pure_eq_ok, Real.exp_log (div_pos (f_pos h _) hs)]

theorem mean_eval (h : |b| < a) (hs : 0 < s) : mean (fin p) (fin a) (fin b) (fin loc) (fin s) =
    .ok (fin (loc + s * (b / d a b * (besselKR (p + 1) (d a b) / besselKR p (d a b))))) := by
  have h1 := d_pos h
  simp only [mean, validate_ok h hs, ok_bind, fin_add, fin_sub, fin_mul, mp.sqrt_nonneg (prod_pos h).le]
  rw [show √((a + b) * (a - b)) = d a b from rfl]
  simp only [fin_div _ h1.ne', ok_bind, one_def, fin_add, mp.besselkR_pos _ h1, fin_mul, fin_div _ (kI.K_pos h1 p).ne', pure_eq_ok, mul_div_assoc]

theorem var_eval (h : |b| < a) (hs : 0 < s) : var (fin p) (fin a) (fin b) (fin loc) (fin s) =
    .ok (fin (s ^ 2 * (besselKR (p + 1) (d a b) / besselKR p (d a b) / d a b + b ^ 2 / d a b ^ 2 * (besselKR (p + 2) (d a b) / besselKR p (d a b) -
      (besselKR (p + 1) (d a b) / besselKR p (d a b)) ^ 2)))) := by
  have h1 := d_pos h
  simp only [var, validate_ok h hs, ok_bind, fin_add, fin_sub, fin_mul, mp.sqrt_nonneg (prod_pos h).le]
  rw [show √((a + b) * (a - b)) = d a b from rfl]
  simp only [fin_div _ h1.ne', ok_bind, one_def, ofNat_def, fin_add, mp.besselkR_pos _ h1, fin_mul, fin_div _ (kI.K_pos h1 p).ne', mp.ipow_fin,
    fin_div _ (prod_pos h).ne', fin_sub, pure_eq_ok, d_sq h]
  congr 6; ring

theorem quad_pdf (h : |b| < a) (hs : 0 < s) {x y : ℝ} (hxy : x ≤ y) :
    mp.quad (fun t => pdf t (fin p) (fin a) (fin b) (fin loc) (fin s)) (fin x) (fin y) =
    .ok (fin (F p a b ((y - loc) / s) - F p a b ((x - loc) / s))) := by
  rw [mp.quad_fin hxy (fun t _ _ => pdf_eval h hs t) (isDist h hs).integrable.integrableOn, ← integral_Ioc_eq_integral_Ioo,
    (isDist h hs).integral_Ioc hxy]
theorem quad_pdf_pinf (h : |b| < a) (hs : 0 < s) (x : ℝ) :
    mp.quad (fun t => pdf t (fin p) (fin a) (fin b) (fin loc) (fin s)) (fin x) pinf = .ok (fin (1 - F p a b ((x - loc) / s))) := by
  rw [mp.quad_pinf (fun t _ => pdf_eval h hs t) (isDist h hs).integrable.integrableOn, (isDist h hs).integral_Ioi]
theorem quad_pdf_ninf (h : |b| < a) (hs : 0 < s) (x : ℝ) :
    mp.quad (fun t => pdf t (fin p) (fin a) (fin b) (fin loc) (fin s)) ninf (fin x) = .ok (fin (F p a b ((x - loc) / s))) := by
  rw [mp.quad_ninf (fun t _ => pdf_eval h hs t) (isDist h hs).integrable.integrableOn, ← integral_Iic_eq_integral_Iio, (isDist h hs).integral_Iic]

theorem cdf_eval (h : |b| < a) (hs : 0 < s) (x : ℝ) : cdf (fin x) (fin p) (fin a) (fin b) (fin loc) (fin s) =
    .ok (fin (F p a b ((x - loc) / s))) := by
  simp only [cdf, validate_ok h hs, ok_bind, integratePdf, mean_eval h hs]
  split_ifs with hm
  · have hm' := (fin_lt _ _).1 hm.2
    simp only [quad_pdf_ninf h hs, quad_pdf h hs hm'.le, ok_bind, fin_add, pure_eq_ok, add_sub_cancel]
  · exact quad_pdf_ninf h hs x
theorem sf_eval (h : |b| < a) (hs : 0 < s) (x : ℝ) : sf (fin x) (fin p) (fin a) (fin b) (fin loc) (fin s) =
    .ok (fin (1 - F p a b ((x - loc) / s))) := by
  simp only [sf, validate_ok h hs, ok_bind, integratePdf, mean_eval h hs]
  split_ifs with hm
  · have hm' := (fin_lt _ _).1 hm.1
    simp only [quad_pdf_pinf h hs, quad_pdf h hs hm'.le, ok_bind, fin_add, pure_eq_ok]
    congr 2; ring
  · exact quad_pdf_pinf h hs x

end Mpsci.genhyperbolic
