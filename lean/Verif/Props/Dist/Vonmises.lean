import Verif.Lemmas.Dist.Vonmises
import Verif.Spec.Circular

/-! Properties of `vonmises`. -/

namespace Mpsci.vonmises

open Classical Num Spec MeasureTheory

variable {k mu : ℝ}

/-- The density function of the model as a real function, its support and its normalisation. -/
theorem isCirc (k mu : ℝ) : IsCircDensity (fun x => pdf x (fin k) (fin mu)) (support (fin k) (fin mu)) (f k mu) (-Real.pi + mu) (Real.pi + mu) := by
  refine ⟨fun x => pdf_eval x k mu, by simp only [support, mp.pi_def, neg_fin, fin_add], by ring, fun x => (f_pos k mu x).le, fun x => ?_,
    (continuous_f k mu).intervalIntegrable _ _, integral_f k mu⟩
  rw [f, f, show x + 2 * Real.pi - mu = x - mu + 2 * Real.pi by ring, Real.cos_add_two_pi]

theorem first (k mu : ℝ) : IsFirstCircMoment (f k mu) (-Real.pi + mu) (Real.pi + mu) (besselI 1 k / besselI 0 k * Real.cos mu)
    (besselI 1 k / besselI 0 k * Real.sin mu) := by
  have hc : Continuous fun x => Real.cos (x - mu) * f k mu x := by have := continuous_f k mu; fun_prop
  have hs : Continuous fun x => Real.sin (x - mu) * f k mu x := by have := continuous_f k mu; fun_prop
  have e1 : ∀ x, Real.cos x * f k mu x = Real.cos mu * (Real.cos (x - mu) * f k mu x) - Real.sin mu * (Real.sin (x - mu) * f k mu x) := fun x => by
    have : Real.cos x = Real.cos (x - mu + mu) := by rw [sub_add_cancel]
    rw [this, Real.cos_add]; ring
  have e2 : ∀ x, Real.sin x * f k mu x = Real.sin mu * (Real.cos (x - mu) * f k mu x) + Real.cos mu * (Real.sin (x - mu) * f k mu x) := fun x => by
    have : Real.sin x = Real.sin (x - mu + mu) := by rw [sub_add_cancel]
    rw [this, Real.sin_add]; ring
  constructor
  · simp only [e1]
    rw [intervalIntegral.integral_sub ((hc.const_mul _).intervalIntegrable _ _) ((hs.const_mul _).intervalIntegrable _ _),
      intervalIntegral.integral_const_mul, intervalIntegral.integral_const_mul, integral_cos, integral_sin]; ring
  · simp only [e2]
    rw [intervalIntegral.integral_add ((hc.const_mul _).intervalIntegrable _ _) ((hs.const_mul _).intervalIntegrable _ _),
      intervalIntegral.integral_const_mul, intervalIntegral.integral_const_mul, integral_cos, integral_sin]; ring

/-- C56: for every real `kappa` and `mu`, `pdf` is a probability density on the circle, and `circmean` and `circvar` are its
circular mean and variance when `kappa > 0`. -/
theorem isCircular (hk : 0 < k) (mu : ℝ) : ∃ f a b m v, IsCircDensity (fun x => pdf x (fin k) (fin mu)) (support (fin k) (fin mu)) f a b ∧
    circmean (fin k) (fin mu) = .ok (fin m) ∧ IsCircMean f a b m ∧ circvar (fin k) (fin mu) = .ok (fin v) ∧ IsCircVar f a b v ∧
    0 ≤ v ∧ v < 1 := by
  have h0 := i0_pos k
  have h1 := i1_pos hk
  have hr := div_pos h1 h0
  refine ⟨f k mu, _, _, mu, 1 - besselI 1 k / besselI 0 k, isCirc k mu, rfl, ⟨_, hr, first k mu⟩, ?_, ⟨_, _, first k mu, ?_⟩, ?_, by linarith⟩
  · simp only [circvar, mp.besseli_fin, ok_bind, fin_div _ h0.ne', pure_eq_ok, one_def, fin_sub]
  · have := Real.sin_sq_add_cos_sq mu
    rw [show (besselI 1 k / besselI 0 k * Real.cos mu) ^ 2 + (besselI 1 k / besselI 0 k * Real.sin mu) ^ 2 =
      (besselI 1 k / besselI 0 k) ^ 2 * (Real.sin mu ^ 2 + Real.cos mu ^ 2) by ring, this, mul_one, Real.sqrt_sq hr.le]
  · rw [sub_nonneg, div_le_one h0]
    refine div_le_div_of_nonneg_right (intervalIntegral.integral_mono_on Real.pi_pos.le (Continuous.intervalIntegrable (by fun_prop) _ _)
      (Continuous.intervalIntegrable (by fun_prop) _ _) fun t _ => ?_) Real.pi_pos.le
    simp only [Nat.cast_zero, zero_mul, Real.cos_zero]
    exact mul_le_mul_of_nonneg_left (Real.cos_le_one _) (Real.exp_pos _).le

/-- C56: the density integrates to 1 for every real `kappa`, in particular for 0, the uniform distribution. -/
theorem isDensity (k mu : ℝ) : ∃ f a b, IsCircDensity (fun x => pdf x (fin k) (fin mu)) (support (fin k) (fin mu)) f a b := ⟨_, _, _, isCirc k mu⟩

/-- C56: `entropy` is the entropy of the density over the support, for every real `kappa`. -/
theorem isEntropy (k mu : ℝ) : ∃ f a b h, IsCircDensity (fun x => pdf x (fin k) (fin mu)) (support (fin k) (fin mu)) f a b ∧
    entropy (fin k) (fin mu) = .ok (fin h) ∧ h = -∫ x in a..b, f x * Real.log (f x) := by
  have h0 := i0_pos k
  refine ⟨f k mu, _, _, -k * (besselI 1 k / besselI 0 k) + Real.log (2 * Real.pi * besselI 0 k), isCirc k mu, ?_, ?_⟩
  · simp only [entropy, mp.besseli_fin, ok_bind, fin_div _ h0.ne', pure_eq_ok, ofNat_def, mp.pi_def, fin_mul, neg_fin, mp.log_pos (den_pos k), fin_add]
  · have e : ∀ x, f k mu x * Real.log (f k mu x) = k * (Real.cos (x - mu) * f k mu x) - Real.log (2 * Real.pi * besselI 0 k) * f k mu x := fun x => by
      have : Real.log (f k mu x) = k * Real.cos (x - mu) - Real.log (2 * Real.pi * besselI 0 k) := by
        rw [f, Real.log_div (Real.exp_pos _).ne' (den_pos k).ne', Real.log_exp]
      rw [this]; ring
    have hc : Continuous fun x => Real.cos (x - mu) * f k mu x := by have := continuous_f k mu; fun_prop
    simp only [e]
    rw [intervalIntegral.integral_sub ((hc.const_mul _).intervalIntegrable _ _) (((continuous_f k mu).const_mul _).intervalIntegrable _ _),
      intervalIntegral.integral_const_mul, intervalIntegral.integral_const_mul, integral_cos, integral_f]; ring

/-- C04, C42: `logpdf` is the logarithm of `pdf`. -/
theorem isLogOf (k mu : ℝ) : IsLogOf ∅ (fun x => pdf x (fin k) (fin mu)) (fun x => logpdf x (fin k) (fin mu)) := by
  intro x _
  refine ⟨_, (f_pos k mu x).le, pdf_eval x k mu, ?_⟩
  have hp : 0 < 2 * Real.pi := by have := Real.pi_pos; positivity
  rw [if_neg (f_pos k mu x).ne', f, Real.log_div (Real.exp_pos _).ne' (den_pos k).ne', Real.log_exp, Real.log_mul hp.ne' (i0_pos k).ne']
  simp only [logpdf, mp.besseli_fin, ok_bind, fin_sub, mp.cos_fin, fin_mul, ofNat_def, mp.pi_def, mp.log_pos hp, mp.log_pos (i0_pos k), pure_eq_ok]
  congr 2; ring

/-- C56 fails for `kappa < 0`, which is not rejected: `circvar` returns a number above 1, and `circmean` the direction opposite to
the mean. -/
theorem negative_kappa (hk : k < 0) (mu : ℝ) : (∃ v, circvar (fin k) (fin mu) = .ok (fin v) ∧ 1 < v) ∧
    circmean (fin k) (fin mu) = .ok (fin mu) ∧ IsCircMean (f k mu) (-Real.pi + mu) (Real.pi + mu) (mu + Real.pi) := by
  have h0 := i0_pos k
  have hr := div_neg_of_neg_of_pos (i1_neg hk) h0
  refine ⟨⟨1 - besselI 1 k / besselI 0 k, ?_, by linarith⟩, rfl, -(besselI 1 k / besselI 0 k), by linarith, ?_⟩
  · simp only [circvar, mp.besseli_fin, ok_bind, fin_div _ h0.ne', pure_eq_ok, one_def, fin_sub]
  · have := first k mu
    rw [Real.cos_add_pi, Real.sin_add_pi, neg_mul_neg, neg_mul_neg]
    exact this

/-- Non-vacuity: `kappa = 2` is a case of the above, and the density is not constant. -/
example : (0:ℝ) < 2 ∧ f 2 0 Real.pi < f 2 0 0 := by
  refine ⟨two_pos, div_lt_div_of_pos_right ?_ (den_pos 2)⟩
  rw [sub_zero, sub_zero, Real.cos_pi, Real.cos_zero]
  exact Real.exp_lt_exp.2 (by norm_num)

end Mpsci.vonmises
