import Verif.Model.Fun.Faddeeva
import Verif.Spec.Faddeeva
import Mathlib.Analysis.Complex.HasPrimitives
import Mathlib.Analysis.Calculus.MeanValue
import Mathlib.Analysis.SpecialFunctions.ExpDeriv
import Mathlib.MeasureTheory.Integral.IntervalIntegral.FundThmCalculus

/-! The Faddeeva function. -/

namespace Mpsci

open Complex Spec MeasureTheory ComplexConjugate

namespace fun_

theorem sqrtpi_ne : ((√Real.pi : ℝ) : ℂ) ≠ 0 := by
  rw [Ne, ofReal_eq_zero]; exact (Real.sqrt_pos.2 Real.pi_pos).ne'

theorem gauss_diff : Differentiable ℂ fun u : ℂ => exp (-u ^ 2) := by fun_prop

/-- the integral along the segment is a primitive -/
theorem primitive (z : ℂ) : HasDerivAt (fun z : ℂ => z * ∫ t in (0:ℝ)..1, exp (-(t * z) ^ 2)) (exp (-z ^ 2)) z := by
  obtain ⟨G, hG⟩ := gauss_diff.isExactOn_univ
  have key : ∀ z : ℂ, z * ∫ t in (0:ℝ)..1, exp (-(t * z) ^ 2) = G z - G 0 := fun z => by
    have h : ∀ t ∈ Set.uIcc (0:ℝ) 1, HasDerivAt (fun t : ℝ => G (t * z)) (exp (-(t * z) ^ 2) * z) t := fun t _ => by
      have h1 := (hG (t * z) trivial).comp (t : ℂ) ((hasDerivAt_id (t : ℂ)).mul_const z)
      simpa using h1.comp_ofReal
    have := intervalIntegral.integral_eq_sub_of_hasDerivAt h (Continuous.intervalIntegrable (by fun_prop) _ _)
    rw [intervalIntegral.integral_mul_const, mul_comm] at this
    simpa using this
  simp only [key]
  exact (hG z trivial).sub_const _

theorem erfcC_deriv (z : ℂ) : HasDerivAt mp.erfcC (-(2 / (√Real.pi : ℝ) * exp (-z ^ 2))) z :=
  ((primitive z).const_mul _).const_sub 1

/-- C69 -/
theorem faddeevaw_spec : IsFaddeeva faddeevaw := by
  refine ⟨by simp [faddeevaw, mp.erfcC], fun z => ?_⟩
  have h1 : HasDerivAt (fun z : ℂ => exp (-z ^ 2)) (exp (-z ^ 2) * (-(2 * z))) z := by
    have := ((hasDerivAt_pow 2 z).neg).cexp
    simpa using this
  have h2 := (erfcC_deriv (-I * z)).comp z ((hasDerivAt_id z).const_mul (-I))
  refine (h1.mul h2).congr_deriv ?_
  have e : -(-I * z) ^ 2 = z ^ 2 := by rw [mul_pow, neg_sq, I_sq]; ring
  have e2 : exp (-z ^ 2) * exp (z ^ 2) = 1 := by rw [← exp_add]; simp
  simp only [id, mul_one, Function.comp_apply, e, faddeevaw]
  linear_combination (2 * I / (√Real.pi : ℝ)) * e2

/-- C69: there is only one such function. -/
theorem isFaddeeva_unique {u v : ℂ → ℂ} (hu : IsFaddeeva u) (hv : IsFaddeeva v) : u = v := by
  have hd : ∀ z, HasDerivAt (fun z => (u z - v z) * exp (z ^ 2)) 0 z := fun z => by
    have h1 : HasDerivAt (fun z : ℂ => exp (z ^ 2)) (exp (z ^ 2) * (2 * z)) z := by
      have := (hasDerivAt_pow 2 z).cexp
      simpa using this
    refine (((hu.2 z).sub (hv.2 z)).mul h1).congr_deriv ?_
    simp only [Pi.sub_apply]
    ring
  funext z
  have := is_const_of_deriv_eq_zero (fun z => (hd z).differentiableAt) (fun z => (hd z).deriv) z 0
  simp only [hu.1, hv.1, sub_self, zero_mul] at this
  exact sub_eq_zero.1 ((mul_eq_zero.1 this).resolve_right (exp_ne_zero _))

theorem erfcC_neg (z : ℂ) : mp.erfcC (-z) = 2 - mp.erfcC z := by
  simp only [mp.erfcC, mul_neg, neg_sq]; ring

theorem erfcC_conj (z : ℂ) : mp.erfcC (conj z) = conj (mp.erfcC z) := by
  simp only [mp.erfcC, map_sub, map_one, map_mul, map_div₀, map_ofNat, conj_ofReal]
  congr 3
  rw [← intervalIntegral.intervalIntegral_conj]
  refine intervalIntegral.integral_congr fun t _ => ?_
  simp only [← exp_conj, map_neg, map_pow, map_mul, conj_ofReal]

/-- C69: the identity of the docstring. -/
theorem faddeevaw_neg_conj (z : ℂ) : faddeevaw (-z) = conj (faddeevaw (conj z)) := by
  simp only [faddeevaw, map_mul, ← exp_conj, ← erfcC_conj, map_neg, map_pow, conj_conj, conj_I, neg_sq]
  congr 2; ring

/-- C69: reflection. -/
theorem faddeevaw_neg (z : ℂ) : faddeevaw (-z) = 2 * exp (-z ^ 2) - faddeevaw z := by
  simp only [faddeevaw, mul_neg, erfcC_neg, neg_sq]; ring

/-- C69: on the real axis the real part is `exp(-x²)`. -/
theorem faddeevaw_re (x : ℝ) : (faddeevaw x).re = Real.exp (-x ^ 2) := by
  have h1 := faddeevaw_neg_conj (x : ℂ)
  rw [conj_ofReal, faddeevaw_neg] at h1
  have h2 := congrArg re h1
  have e : exp (-(x:ℂ) ^ 2) = ((Real.exp (-x ^ 2) : ℝ) : ℂ) := by push_cast; rfl
  rw [sub_re, conj_re, e, show (2:ℂ) * ((Real.exp (-x ^ 2) : ℝ) : ℂ) = ((2 * Real.exp (-x ^ 2) : ℝ) : ℂ) by push_cast; rfl, ofReal_re] at h2
  linarith

/-- C69: on the imaginary axis the function is the scaled complementary error function, `exp(y²) erfc(y)` with
`erfc(y) = 1 - 2/√π ∫ exp(-t²)` from 0 to `y`. -/
theorem faddeevaw_imag (y : ℝ) : faddeevaw (I * y) = ((Real.exp (y ^ 2) * (1 - 2 / √Real.pi * ∫ t in (0:ℝ)..y, Real.exp (-t ^ 2)) : ℝ) : ℂ) := by
  have e1 : -(I * (y:ℂ)) ^ 2 = ((y ^ 2 : ℝ) : ℂ) := by rw [mul_pow, I_sq]; push_cast; ring
  have e2 : -I * (I * (y:ℂ)) = y := by rw [← mul_assoc, neg_mul, I_mul_I]; simp
  have e3 : (y:ℂ) * ∫ t in (0:ℝ)..1, exp (-(t * (y:ℂ)) ^ 2) = ((∫ t in (0:ℝ)..y, Real.exp (-t ^ 2) : ℝ) : ℂ) := by
    have h1 : ∀ t : ℝ, exp (-(t * (y:ℂ)) ^ 2) = ((Real.exp (-(t * y) ^ 2) : ℝ) : ℂ) := fun t => by push_cast; rfl
    simp only [h1, intervalIntegral.integral_ofReal]
    have h2 := intervalIntegral.smul_integral_comp_mul_right (a := 0) (b := 1) (fun u : ℝ => Real.exp (-u ^ 2)) y
    rw [zero_mul, one_mul, smul_eq_mul] at h2
    rw [← h2]; push_cast; rfl
  rw [faddeevaw, mp.erfcC, e1, e2, e3]
  push_cast; rfl

end fun_

end Mpsci
