import Verif.Base.NormalErf
import Verif.Lemmas.Dist
import Verif.Lemmas.Shape
import Mathlib.Analysis.SpecialFunctions.Gaussian.GaussianIntegral

/-! The standard normal distribution: moments and exponential moments. -/

namespace Mpsci

open Classical Num MeasureTheory Filter Topology Set Spec

theorem isDist_normal : IsDist Phi phi :=
  isDist_univ hasDerivAt_Phi (fun x => (phi_pos x).le) Phi_atBot Phi_atTop

theorem int01_of_phi {h : ℝ → ℝ} {v : ℝ} (hm : Measurable h) (hi : Integrable fun x => h x * phi x)
    (hv : ∫ x, h x * phi x = v) : Int01 (fun p => h (PhiInv p)) v := by
  obtain ⟨h1, h2⟩ := isDist_normal.expect (Q := PhiInv) (fun _ => Phi_PhiInv) (h := h) hm.aestronglyMeasurable
  exact ⟨h1.2 hi, h2.trans hv⟩

theorem phi_mgf (t x : ℝ) : Real.exp (t * x) * phi x = Real.exp (t ^ 2 / 2) * phi (x - t) := by
  rw [phi, phi, ← mul_div_assoc, ← mul_div_assoc, ← Real.exp_add, ← Real.exp_add]
  congr 2; ring

theorem int01_exp (t : ℝ) : Int01 (fun p => Real.exp (t * PhiInv p)) (Real.exp (t ^ 2 / 2)) := by
  refine int01_of_phi (h := fun x => Real.exp (t * x)) (by fun_prop) ?_ ?_
  · simp only [phi_mgf]; exact (phi_integrable.comp_sub_right t).const_mul _
  · simp only [phi_mgf]
    rw [integral_const_mul, integral_sub_right_eq_self phi t, phi_integral, mul_one]

/-- Moments by parts: the derivative of `-x^n phi` is `x^(n+1) phi - n x^(n-1) phi`. -/
theorem integrable_pow_phi (n : ℕ) : Integrable fun x => x ^ n * phi x := by
  have h : Integrable fun x : ℝ => x ^ (n : ℝ) * Real.exp (-(1/2) * x ^ 2) :=
    integrable_rpow_mul_exp_neg_mul_sq (by norm_num) (by have : (0:ℝ) ≤ n := n.cast_nonneg
                                                         linarith)
  refine (h.div_const (Real.sqrt (2 * Real.pi))).congr (Eventually.of_forall fun x => ?_)
  simp only [phi, Real.rpow_natCast]
  rw [mul_div_assoc]; congr 3; ring

theorem tendsto_pow_phi (n : ℕ) : Tendsto (fun x => x ^ n * phi x) atTop (𝓝 0) := by
  have h := (rpow_mul_exp_neg_mul_sq_isLittleO_exp_neg (b := 1/2) (by norm_num) (n : ℝ))
  have h2 : Tendsto (fun x : ℝ => Real.exp (-(1/2) * x)) atTop (𝓝 0) := by
    have : Tendsto (fun x : ℝ => -(1/2) * x) atTop atBot := tendsto_id.const_mul_atTop_of_neg (by norm_num)
    exact Real.tendsto_exp_atBot.comp this
  have h3 := (h.trans_tendsto h2).div_const (Real.sqrt (2 * Real.pi))
  rw [zero_div] at h3
  refine h3.congr fun x => ?_
  simp only [phi, Real.rpow_natCast]
  rw [mul_div_assoc]; congr 3; ring

theorem tendsto_pow_phi_bot (n : ℕ) : Tendsto (fun x => x ^ n * phi x) atBot (𝓝 0) := by
  have := ((tendsto_pow_phi n).comp tendsto_neg_atBot_atTop).const_mul ((-1) ^ n)
  rw [mul_zero] at this
  refine this.congr fun x => ?_
  simp only [Function.comp_def, phi_even]
  rw [← mul_assoc, ← mul_pow]; simp

theorem hasDerivAt_phi (x : ℝ) : HasDerivAt phi (-x * phi x) x := by
  have h1 : HasDerivAt (fun x : ℝ => -x ^ 2 / 2) (-x) x := by
    refine ((hasDerivAt_pow 2 x).neg.div_const 2).congr_deriv ?_; norm_num; ring
  refine (h1.exp.div_const (Real.sqrt (2 * Real.pi))).congr_deriv ?_
  rw [phi]; ring

theorem phi_moment_succ (n : ℕ) : ∫ x, x ^ (n + 1) * phi x = n * ∫ x, x ^ (n - 1) * phi x := by
  have hd : ∀ x, HasDerivAt (fun x => -(x ^ n * phi x)) (x ^ (n + 1) * phi x - n * (x ^ (n - 1) * phi x)) x := fun x => by
    refine ((hasDerivAt_pow n x).mul (hasDerivAt_phi x)).neg.congr_deriv ?_
    ring
  have hi : Integrable fun x => x ^ (n + 1) * phi x - n * (x ^ (n - 1) * phi x) :=
    (integrable_pow_phi _).sub ((integrable_pow_phi _).const_mul _)
  have := integral_of_hasDerivAt_of_tendsto hd hi (by simpa using (tendsto_pow_phi_bot n).neg)
    (by simpa using (tendsto_pow_phi n).neg)
  rw [integral_sub (integrable_pow_phi _) ((integrable_pow_phi _).const_mul _), integral_const_mul] at this
  linarith

theorem phi_moment0 : ∫ x, x ^ 0 * phi x = 1 := by simp [phi_integral]
theorem phi_moment1 : ∫ x, x ^ 1 * phi x = 0 := by rw [phi_moment_succ 0]; simp
theorem phi_moment2 : ∫ x, x ^ 2 * phi x = 1 := by rw [phi_moment_succ 1, phi_moment0]; simp
theorem phi_moment3 : ∫ x, x ^ 3 * phi x = 0 := by rw [phi_moment_succ 2, phi_moment1]; simp
theorem phi_moment4 : ∫ x, x ^ 4 * phi x = 3 := by rw [phi_moment_succ 3, phi_moment2]; norm_num

theorem int01_PhiInv : Int01 PhiInv 0 :=
  (int01_of_phi (h := fun x => x ^ 1) (by fun_prop) (integrable_pow_phi 1) phi_moment1).congr fun p _ _ => by simp
theorem int01_PhiInv_sq : Int01 (fun p => PhiInv p ^ 2) 1 :=
  int01_of_phi (h := fun x => x ^ 2) (by fun_prop) (integrable_pow_phi 2) phi_moment2

theorem phi_le (x : ℝ) : phi x ≤ phi 0 := by
  unfold phi
  exact div_le_div_of_nonneg_right (Real.exp_le_exp.2 (by nlinarith [sq_nonneg x])) sqrt_two_pi_pos.le

theorem log_phi (x : ℝ) : Real.log (phi x) = -Real.log (2 * Real.pi) / 2 - x ^ 2 / 2 := by
  rw [phi, Real.log_div (Real.exp_pos _).ne' sqrt_two_pi_pos.ne', Real.log_exp,
    Real.log_sqrt (by have := Real.pi_pos; positivity)]; ring

theorem hasEnt_phi : HasEnt phi ((Real.log (2 * Real.pi) + 1) / 2) := by
  refine HasEnt.of_int01 isDist_normal (fun _ => Phi_PhiInv) ?_
  have := (Int01.const (Real.log (2 * Real.pi) / 2)).add (int01_PhiInv_sq.mul (1 / 2))
  rw [show Real.log (2 * Real.pi) / 2 + 1 / 2 * 1 = (Real.log (2 * Real.pi) + 1) / 2 by ring] at this
  refine this.congr fun p _ _ => ?_
  rw [log_phi]; ring

end Mpsci
