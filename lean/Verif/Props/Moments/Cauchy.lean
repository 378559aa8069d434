import Verif.Lemmas.Int01More
import Verif.Lemmas.Dist.Cauchy
import Mathlib.Analysis.SpecialFunctions.Integrals.LogTrigonometric
import Mathlib.Analysis.SpecialFunctions.NonIntegrable

/-! The Cauchy distribution has no mean and no variance; its entropy. -/

namespace Mpsci.cauchy

open Classical Num Spec common Set MeasureTheory

variable {loc s : ℝ}

theorem not_int_Q : ¬ IntegrableOn Q (Ioo 0 1) := fun h => by
  have h1 : Integrable (fun x => x * f x) := (isDist_std.expect (fun p h0 h1 => (F_Q h0 h1).2) (h := fun x => x) (by fun_prop)).1.1 h
  refine not_integrableOn_Ioi_inv (a := 1) (Integrable.mono' ((h1.const_mul (2 * Real.pi)).integrableOn (s := Ioi 1)) ?_ ?_)
  · exact measurable_inv.aestronglyMeasurable
  · filter_upwards [ae_restrict_mem measurableSet_Ioi] with x hx
    have hx : 1 < x := hx
    have h2 : 0 < x := by linarith
    rw [norm_inv, Real.norm_of_nonneg h2.le, f, inv_eq_one_div, div_le_iff₀ h2]
    have hp := Real.pi_pos
    have e : 2 * Real.pi * (x * (1 / (Real.pi * (1 + x ^ 2)))) * x = 2 * x ^ 2 / (1 + x ^ 2) := by field_simp
    rw [e, le_div_iff₀ (by positivity)]
    nlinarith

theorem measurable_Q : Measurable Q := by
  unfold Q
  simp only [Real.tan_eq_sin_div_cos]
  fun_prop

theorem not_int_Q2 : ¬ IntegrableOn (fun p => Q p ^ 2) (Ioo 0 1) := fun h => not_int_Q <| by
  have i0 : IntegrableOn (fun _ : ℝ => (1:ℝ)) (Ioo (0:ℝ) 1) := (Int01.const _).1
  refine Integrable.mono' (h.add i0) measurable_Q.aestronglyMeasurable (Filter.Eventually.of_forall fun p => ?_)
  simp only [Pi.add_apply, Real.norm_eq_abs]
  rw [← sq_abs (Q p)]
  nlinarith [sq_nonneg (|Q p| - 1 / 2)]

theorem F_Q' (hs : 0 < s) (p : ℝ) (h0 : 0 < p) (h1 : p < 1) : F ((loc + s * Q p - loc) / s) = p := by
  rw [add_sub_cancel_left, mul_div_cancel_left₀ _ hs.ne']; exact (F_Q h0 h1).2

/-- C37: there is no mean, and nan is returned -/
theorem mean_none (hs : 0 < s) : (¬ ∃ r, IsMean ∅ (pdf · (fin loc) (fin s)) r) ∧ mean (fin loc) (fin s) = .ok nan :=
  ⟨not_isMean_of (fun x _ => pdf_eval hs x) (isDist hs) (Q := fun p => loc + s * Q p) (F_Q' hs) (not_integrableOn_affine hs.ne' not_int_Q),
   by simp only [mean, validateLocScale_ok _ hs, ok_bind, pure_eq_ok]⟩

/-- C37: there is no variance, and nan is returned -/
theorem var_none (hs : 0 < s) : (¬ ∃ r, IsVar ∅ (pdf · (fin loc) (fin s)) r) ∧ var (fin loc) (fin s) = .ok nan :=
  ⟨not_isVar_of (fun x _ => pdf_eval hs x) (isDist hs) (Q := fun p => loc + s * Q p) (F_Q' hs)
    (not_integrableOn_affine_sq measurable_Q hs.ne' not_int_Q2),
   by simp only [var, validateLocScale_ok _ hs, ok_bind, pure_eq_ok]⟩

theorem int01_log_sin : Int01 (fun p => Real.log (Real.sin (Real.pi * p))) (-Real.log 2) := by
  have hp := Real.pi_pos
  constructor
  · rw [← intervalIntegrable_iff_integrableOn_Ioo_of_le zero_le_one]
    have h := (intervalIntegrable_log_sin (a := 0) (b := Real.pi)).comp_mul_left (c := Real.pi)
    simpa [hp.ne', Function.comp_def] using h
  · rw [← integral_Ioc_eq_integral_Ioo, ← intervalIntegral.integral_of_le zero_le_one,
      intervalIntegral.integral_comp_mul_left (fun x => Real.log (Real.sin x)) hp.ne', mul_zero, mul_one, integral_log_sin_zero_pi]
    simp only [smul_eq_mul]
    field_simp

theorem int01_log_f : Int01 (fun p => -Real.log (f (Q p))) (Real.log (4 * Real.pi)) := by
  have h := (Int01.const (Real.log Real.pi)).add (int01_log_sin.mul (-2))
  rw [show Real.log Real.pi + -2 * -Real.log 2 = Real.log (4 * Real.pi) by
    rw [Real.log_mul (by norm_num) Real.pi_ne_zero, show (4:ℝ) = 2 ^ 2 by norm_num, Real.log_pow]; push_cast; ring] at h
  refine h.congr fun p h0 h1 => ?_
  have hs : 0 < Real.sin (Real.pi * p) :=
    Real.sin_pos_of_pos_of_lt_pi (mul_pos Real.pi_pos h0) (by nlinarith [Real.pi_pos])
  have hc : Real.cos (Real.pi * p - Real.pi / 2) = Real.sin (Real.pi * p) := Real.cos_sub_pi_div_two _
  have e : f (Q p) = Real.sin (Real.pi * p) ^ 2 / Real.pi := by
    have h3 := Real.inv_one_add_tan_sq (x := Real.pi * p - Real.pi / 2) (by rw [hc]; exact hs.ne')
    rw [f, Q, ← hc, ← h3, one_div, mul_inv, div_eq_mul_inv (_⁻¹), mul_comm]
  rw [e, Real.log_div (pow_pos hs 2).ne' Real.pi_ne_zero, Real.log_pow]
  push_cast; ring

/-- C37 -/
theorem isEntropy (hs : 0 < s) : IsEntropy ∅ (pdf · (fin loc) (fin s)) (entropy (fin loc) (fin s)) := by
  have hp : 0 < 4 * Real.pi := by positivity
  refine HasEnt.isEntropy ((HasEnt.of_int01 isDist_std (fun p h0 h1 => (F_Q h0 h1).2) int01_log_f).affine loc hs fun z => (f_pos z).le)
    finite_empty (fun x _ => pdf_eval hs x) ?_
  simp only [entropy, validateLocScale_ok _ hs, ok_bind, ofNat_def, mp.pi_def, fin_mul, mp.log_pos (mul_pos hp hs)]
  rw [Real.log_mul hp.ne' hs.ne']

example : entropy (fin 5) (fin 3) = .ok (fin (Real.log (4 * Real.pi * 3))) := by
  simp only [entropy, validateLocScale_ok _ (three_pos (α := ℝ)), ok_bind, ofNat_def, mp.pi_def, fin_mul,
    mp.log_pos (show 0 < 4 * Real.pi * 3 by positivity)]

end Mpsci.cauchy
