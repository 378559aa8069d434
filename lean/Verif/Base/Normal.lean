import Verif.Base.Mp
import Mathlib.Probability.Distributions.Gaussian.Real

/-!
# The normal distribution functions of mpmath
-/

namespace Mpsci

open Classical Num MeasureTheory

/-- The distribution function of the standard normal distribution. -/
noncomputable def Phi (x : ℝ) : ℝ :=
  ∫ t in Set.Iic x, Real.exp (-t ^ 2 / 2) / Real.sqrt (2 * Real.pi)

/-- `mp.ncdf(x)` -/
noncomputable def mp.ncdf : Num → Num
  | fin x => fin (Phi x)
  | pinf => 1
  | ninf => 0
  | nan => nan
@[simp] theorem mp.ncdf_fin (x : ℝ) : mp.ncdf (fin x) = fin (Phi x) := rfl
@[simp] theorem mp.ncdf_pinf : mp.ncdf pinf = 1 := rfl
@[simp] theorem mp.ncdf_ninf : mp.ncdf ninf = 0 := rfl

/-- The density of the standard normal distribution. -/
noncomputable def phi (t : ℝ) : ℝ := Real.exp (-t ^ 2 / 2) / Real.sqrt (2 * Real.pi)

theorem phi_eq (t : ℝ) : phi t = ProbabilityTheory.gaussianPDFReal 0 1 t := by
  simp [phi, ProbabilityTheory.gaussianPDFReal, div_eq_inv_mul]

theorem phi_pos (t : ℝ) : 0 < phi t := by unfold phi; positivity
theorem phi_even (t : ℝ) : phi (-t) = phi t := by simp [phi]
theorem phi_continuous : Continuous phi := by
  unfold phi; exact (Real.continuous_exp.comp (by fun_prop)).div_const _
theorem phi_integrable : Integrable phi := by
  have := ProbabilityTheory.integrable_gaussianPDFReal 0 1
  rwa [show phi = ProbabilityTheory.gaussianPDFReal 0 1 from funext phi_eq]
theorem phi_integral : ∫ t, phi t = 1 := by
  rw [show phi = ProbabilityTheory.gaussianPDFReal 0 1 from funext phi_eq]
  exact ProbabilityTheory.integral_gaussianPDFReal_eq_one 0 one_ne_zero

theorem Phi_eq (x : ℝ) : Phi x = ∫ t in Set.Iic x, phi t := rfl

theorem Phi_neg (x : ℝ) : Phi (-x) = 1 - Phi x := by
  have h1 : Phi (-x) = ∫ t in Set.Ioi x, phi t := by
    rw [Phi_eq]
    have := integral_comp_neg_Iic (-x) phi
    rw [neg_neg] at this
    rw [← this]
    exact setIntegral_congr_fun measurableSet_Iic fun t _ => (phi_even t).symm
  have h2 := integral_add_compl (measurableSet_Iic (a := x)) phi_integrable
  rw [phi_integral, Set.compl_Iic] at h2
  rw [h1, Phi_eq]; linarith

theorem Phi_pos (x : ℝ) : 0 < Phi x := by
  rw [Phi_eq, setIntegral_pos_iff_support_of_nonneg_ae]
  · have : Function.support phi ∩ Set.Iic x = Set.Iic x := by
      rw [Set.inter_eq_right]; exact fun t _ => (phi_pos t).ne'
    rw [this]; simp
  · exact Filter.Eventually.of_forall fun t => (phi_pos t).le
  · exact phi_integrable.integrableOn

theorem Phi_lt_one (x : ℝ) : Phi x < 1 := by
  have := Phi_pos (-x); rw [Phi_neg] at this; linarith

end Mpsci
