import Verif.Base.Mp
import Mathlib.Analysis.SpecialFunctions.Gaussian.GaussianIntegral
import Mathlib.MeasureTheory.Integral.IntegralEqImproper
import Mathlib.MeasureTheory.Integral.IntervalIntegral.FundThmCalculus

/-!
# The error functions of mpmath
-/

namespace Mpsci

open Classical Num MeasureTheory Filter Topology Set

/-- The error function. -/
noncomputable def erfR (x : ℝ) : ℝ := 2 / Real.sqrt Real.pi * ∫ t in (0:ℝ)..x, Real.exp (-t ^ 2)

/-- `mp.erf(x)` -/
noncomputable def mp.erf : Num → Num
  | fin x => fin (erfR x)
  | pinf => 1
  | ninf => -1
  | nan => nan
/-- `mp.erfc(x) = 1 - erf(x)` -/
noncomputable def mp.erfc : Num → Num
  | fin x => fin (1 - erfR x)
  | pinf => 0
  | ninf => 2
  | nan => nan
@[simp] theorem mp.erf_fin (x : ℝ) : mp.erf (fin x) = fin (erfR x) := rfl
@[simp] theorem mp.erf_pinf : mp.erf pinf = 1 := rfl
@[simp] theorem mp.erf_ninf : mp.erf ninf = -1 := rfl
@[simp] theorem mp.erfc_fin (x : ℝ) : mp.erfc (fin x) = fin (1 - erfR x) := rfl
@[simp] theorem mp.erfc_pinf : mp.erfc pinf = 0 := rfl
@[simp] theorem mp.erfc_ninf : mp.erfc ninf = 2 := rfl

theorem hasDerivAt_erfR (x : ℝ) : HasDerivAt erfR (2 / Real.sqrt Real.pi * Real.exp (-x ^ 2)) x := by
  have hc : Continuous fun t : ℝ => Real.exp (-t ^ 2) := by fun_prop
  exact (intervalIntegral.integral_hasDerivAt_right (hc.intervalIntegrable 0 x)
    (hc.stronglyMeasurableAtFilter _ _) hc.continuousAt).const_mul _

@[simp] theorem erfR_zero : erfR 0 = 0 := by simp [erfR]

theorem erfR_neg (x : ℝ) : erfR (-x) = -erfR x := by
  have := intervalIntegral.integral_comp_neg (a := 0) (b := x) fun t : ℝ => Real.exp (-t ^ 2)
  simp only [even_two.neg_pow, neg_zero] at this
  rw [erfR, erfR, intervalIntegral.integral_symm, ← this]; ring

theorem erfR_strictMono : StrictMono erfR :=
  strictMono_of_deriv_pos fun x => by
    rw [(hasDerivAt_erfR x).deriv]
    have := Real.pi_pos
    positivity

theorem erfR_atTop : Tendsto erfR atTop (𝓝 1) := by
  have hi : Integrable fun t : ℝ => Real.exp (-t ^ 2) := by
    simpa using integrable_exp_neg_mul_sq one_pos
  have h := (intervalIntegral_tendsto_integral_Ioi 0 hi.integrableOn tendsto_id).const_mul (2 / Real.sqrt Real.pi)
  have e : ∫ t in Ioi (0:ℝ), Real.exp (-t ^ 2) = Real.sqrt Real.pi / 2 := by
    simpa using integral_gaussian_Ioi 1
  rw [e] at h
  have hp : 0 < Real.sqrt Real.pi := Real.sqrt_pos.2 Real.pi_pos
  rwa [show 2 / Real.sqrt Real.pi * (Real.sqrt Real.pi / 2) = 1 by field_simp] at h

theorem erfR_atBot : Tendsto erfR atBot (𝓝 (-1)) := by
  have := (erfR_atTop.comp tendsto_neg_atBot_atTop).neg
  refine this.congr fun x => ?_
  simp [erfR_neg]

theorem erfR_lt_one (x : ℝ) : erfR x < 1 :=
  lt_of_lt_of_le (erfR_strictMono (lt_add_one x)) (erfR_strictMono.monotone.ge_of_tendsto erfR_atTop _)
theorem neg_one_lt_erfR (x : ℝ) : -1 < erfR x := by
  have := erfR_lt_one (-x); rw [erfR_neg] at this; linarith

end Mpsci
