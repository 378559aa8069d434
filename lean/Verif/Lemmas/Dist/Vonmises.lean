import Verif.Model.Dist.Vonmises
import Verif.Lemmas.Helpers
import Mathlib.Analysis.SpecialFunctions.Integrals.Basic
import Mathlib.MeasureTheory.Integral.IntervalIntegral.FundThmCalculus
import Mathlib.Analysis.SpecialFunctions.Trigonometric.Deriv

namespace Mpsci.vonmises

open Classical Num MeasureTheory

/-- Bessel's integrals over a whole period -/
theorem full (k : ℝ) (n : ℕ) : ∫ t in (-Real.pi)..Real.pi, Real.exp (k * Real.cos t) * Real.cos (n * t) = 2 * Real.pi * besselI n k := by
  have hc : Continuous fun t : ℝ => Real.exp (k * Real.cos t) * Real.cos (n * t) := by fun_prop
  rw [← intervalIntegral.integral_add_adjacent_intervals (hc.intervalIntegrable _ 0) (hc.intervalIntegrable 0 _)]
  have h1 : ∫ t in (-Real.pi)..0, Real.exp (k * Real.cos t) * Real.cos (n * t) = ∫ t in (0:ℝ)..Real.pi, Real.exp (k * Real.cos t) * Real.cos (n * t) := by
    have := intervalIntegral.integral_comp_neg (a := 0) (b := Real.pi) fun t : ℝ => Real.exp (k * Real.cos t) * Real.cos (n * t)
    rw [neg_zero] at this
    rw [← this]
    refine intervalIntegral.integral_congr fun t _ => ?_
    simp only [Real.cos_neg, mul_neg]
  have h2 : ∫ t in (0:ℝ)..Real.pi, Real.exp (k * Real.cos t) * Real.cos (n * t) = Real.pi * besselI n k := by
    rw [besselI, mul_div_cancel₀ _ Real.pi_ne_zero]
  rw [h1, h2]; ring

theorem odd (k : ℝ) : ∫ t in (-Real.pi)..Real.pi, Real.exp (k * Real.cos t) * Real.sin t = 0 := by
  have := intervalIntegral.integral_comp_neg (a := -Real.pi) (b := Real.pi) fun t : ℝ => Real.exp (k * Real.cos t) * Real.sin t
  rw [neg_neg] at this
  simp only [Real.cos_neg, Real.sin_neg, mul_neg, intervalIntegral.integral_neg] at this
  linarith

theorem i0_pos (k : ℝ) : 0 < besselI 0 k := by
  refine div_pos (intervalIntegral.intervalIntegral_pos_of_pos (Continuous.intervalIntegrable (by fun_prop) _ _) (fun t => ?_) Real.pi_pos) Real.pi_pos
  simp [Real.exp_pos]

/-- the sign of `I_1`, by parts -/
theorem i1_eq (k : ℝ) : besselI 1 k = k * ((∫ t in (0:ℝ)..Real.pi, Real.exp (k * Real.cos t) * Real.sin t ^ 2) / Real.pi) := by
  have h1 : ∫ t in (0:ℝ)..Real.pi, (Real.exp (k * Real.cos t) * Real.cos t - k * (Real.exp (k * Real.cos t) * Real.sin t ^ 2)) = 0 := by
    rw [intervalIntegral.integral_eq_sub_of_hasDerivAt (f := fun t => Real.exp (k * Real.cos t) * Real.sin t) (fun t _ => ?_)
      (Continuous.intervalIntegrable (by fun_prop) _ _)]
    · simp
    · have h2 : HasDerivAt (fun t => k * Real.cos t) (k * -Real.sin t) t := (Real.hasDerivAt_cos t).const_mul k
      exact (h2.exp.mul (Real.hasDerivAt_sin t)).congr_deriv (by ring)
  rw [intervalIntegral.integral_sub (Continuous.intervalIntegrable (by fun_prop) _ _) (Continuous.intervalIntegrable (by fun_prop) _ _),
    intervalIntegral.integral_const_mul] at h1
  rw [besselI]
  simp only [Nat.cast_one, one_mul]
  rw [← mul_div_assoc]
  congr 1
  linarith

theorem i1_factor_pos (k : ℝ) : 0 < (∫ t in (0:ℝ)..Real.pi, Real.exp (k * Real.cos t) * Real.sin t ^ 2) / Real.pi := by
  refine div_pos (intervalIntegral.intervalIntegral_pos_of_pos_on (Continuous.intervalIntegrable (by fun_prop) _ _) (fun t ht => ?_) Real.pi_pos) Real.pi_pos
  have := Real.sin_pos_of_pos_of_lt_pi ht.1 ht.2
  positivity

theorem i1_pos {k : ℝ} (hk : 0 < k) : 0 < besselI 1 k := by rw [i1_eq]; exact mul_pos hk (i1_factor_pos k)
theorem i1_neg {k : ℝ} (hk : k < 0) : besselI 1 k < 0 := by rw [i1_eq]; exact mul_neg_of_neg_of_pos hk (i1_factor_pos k)

/-- the density -/
noncomputable def f (k mu x : ℝ) : ℝ := Real.exp (k * Real.cos (x - mu)) / (2 * Real.pi * besselI 0 k)

theorem den_pos (k : ℝ) : 0 < 2 * Real.pi * besselI 0 k := by have := i0_pos k; have := Real.pi_pos; positivity
theorem f_pos (k mu x : ℝ) : 0 < f k mu x := div_pos (Real.exp_pos _) (den_pos k)
theorem continuous_f (k mu : ℝ) : Continuous (f k mu) := by unfold f; fun_prop

theorem pdf_eval (x k mu : ℝ) : pdf (fin x) (fin k) (fin mu) = .ok (fin (f k mu x)) := by
  simp only [pdf, mp.besseli_fin, ok_bind, fin_sub, mp.cos_fin, fin_mul, mp.exp_fin, ofNat_def, mp.pi_def, fin_div _ (den_pos k).ne', f]

/-- an integral over the support is one over `(-π, π)` -/
theorem shift (g : ℝ → ℝ) (mu : ℝ) : ∫ x in (-Real.pi + mu)..(Real.pi + mu), g (x - mu) = ∫ t in (-Real.pi)..Real.pi, g t := by
  rw [intervalIntegral.integral_comp_sub_right]; simp

theorem integral_f (k mu : ℝ) : ∫ x in (-Real.pi + mu)..(Real.pi + mu), f k mu x = 1 := by
  have h := full k 0
  simp only [Nat.cast_zero, zero_mul, Real.cos_zero, mul_one] at h
  rw [show (fun x => f k mu x) = fun x => (fun t => Real.exp (k * Real.cos t) / (2 * Real.pi * besselI 0 k)) (x - mu) from rfl, shift (fun t => Real.exp (k * Real.cos t) / (2 * Real.pi * besselI 0 k)) mu,
    intervalIntegral.integral_div, h, div_self (den_pos k).ne']

theorem integral_cos (k mu : ℝ) : ∫ x in (-Real.pi + mu)..(Real.pi + mu), Real.cos (x - mu) * f k mu x = besselI 1 k / besselI 0 k := by
  have h := full k 1
  simp only [Nat.cast_one, one_mul] at h
  have e : (fun x => Real.cos (x - mu) * f k mu x) = fun x => (fun t => Real.exp (k * Real.cos t) * Real.cos t / (2 * Real.pi * besselI 0 k)) (x - mu) := by
    funext x; simp only [f]; ring
  rw [e, shift (fun t => Real.exp (k * Real.cos t) * Real.cos t / (2 * Real.pi * besselI 0 k)) mu, intervalIntegral.integral_div, h, mul_div_mul_left _ _ (by have := Real.pi_pos; positivity)]

theorem integral_sin (k mu : ℝ) : ∫ x in (-Real.pi + mu)..(Real.pi + mu), Real.sin (x - mu) * f k mu x = 0 := by
  have e : (fun x => Real.sin (x - mu) * f k mu x) = fun x => (fun t => Real.exp (k * Real.cos t) * Real.sin t / (2 * Real.pi * besselI 0 k)) (x - mu) := by
    funext x; simp only [f]; ring
  rw [e, shift (fun t => Real.exp (k * Real.cos t) * Real.sin t / (2 * Real.pi * besselI 0 k)) mu, intervalIntegral.integral_div, odd, zero_div]

end Mpsci.vonmises
