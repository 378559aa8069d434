import Mathlib.Analysis.MellinTransform
import Mathlib.Analysis.SpecialFunctions.Gamma.Beta
import Mathlib.Analysis.SpecialFunctions.Gamma.Deriv
import Mathlib.Analysis.SpecialFunctions.Pow.Asymptotics
import Mathlib.NumberTheory.Harmonic.GammaDeriv

/-! The integrals `∫ t^(s-1) (log t)^n e^(-t) dt` over `(0, ∞)`: the derivatives of the gamma function. -/

namespace Mpsci

open MeasureTheory Set Filter Topology Asymptotics

/-- `∫₀^∞ t^(s-1) (log t)^n e^(-t) dt` -/
noncomputable def LG (n : ℕ) (s : ℝ) : ℝ :=
  ∫ t in Ioi (0:ℝ), t ^ (s - 1) * (Real.log t ^ n * Real.exp (-t))

noncomputable def lgF (n : ℕ) (t : ℝ) : ℂ := ((Real.log t ^ n * Real.exp (-t) : ℝ) : ℂ)

theorem lgF_succ (n : ℕ) : (fun t => Real.log t • lgF n t) = lgF (n + 1) := by
  funext t; simp [lgF, pow_succ]; ring

theorem lgF_top (n : ℕ) (a : ℝ) : lgF n =O[atTop] (fun t : ℝ => t ^ (-a)) := by
  have h1 : (fun t : ℝ => Real.log t ^ n) =O[atTop] (fun t : ℝ => t) :=
    (isLittleO_log_rpow_atTop (r := 1 / ((n:ℝ) + 1)) (by positivity)).isBigO.pow n |>.trans (by
      refine IsBigO.of_bound 1 ?_
      filter_upwards [eventually_ge_atTop 1] with t ht
      have h0 : (0:ℝ) ≤ t := by linarith
      rw [← Real.rpow_natCast, ← Real.rpow_mul h0, one_mul, Real.norm_of_nonneg (by positivity),
        Real.norm_of_nonneg h0]
      calc t ^ (1 / ((n:ℝ) + 1) * n) ≤ t ^ (1:ℝ) := by
            apply Real.rpow_le_rpow_of_exponent_le ht
            rw [one_div, inv_mul_le_iff₀ (by positivity)]; linarith
        _ = t := Real.rpow_one t)
  have h2 : (fun t : ℝ => Real.exp (-t)) =O[atTop] (fun t : ℝ => t ^ (-a - 1)) := by
    have := (isLittleO_exp_neg_mul_rpow_atTop (a := 1) one_pos (-a - 1)).isBigO
    simpa using this
  have h3 := h1.mul h2
  have h4 : (fun t : ℝ => t * t ^ (-a - 1)) =ᶠ[atTop] (fun t : ℝ => t ^ (-a)) := by
    filter_upwards [eventually_gt_atTop 0] with t ht
    rw [show -a = 1 + (-a - 1) by ring, Real.rpow_add ht, Real.rpow_one]; ring_nf
  refine (IsBigO.trans ?_ (h3.trans_eventuallyEq h4))
  refine IsBigO.of_bound 1 (Eventually.of_forall fun t => ?_)
  rw [one_mul, lgF, Complex.norm_real]

theorem lgF_bot (n : ℕ) {b : ℝ} (hb : 0 < b) : lgF n =O[𝓝[>] 0] (fun t : ℝ => t ^ (-b)) := by
  have h1 : (fun t : ℝ => Real.log t ^ n) =O[𝓝[>] 0] (fun t : ℝ => t ^ (-b)) := by
    have h2 := (isLittleO_log_rpow_nhdsGT_zero (r := -(b / ((n:ℝ) + 1))) (by
      rw [neg_lt_zero]; positivity)).isBigO.pow n
    refine h2.trans (IsBigO.of_bound 1 ?_)
    have : ∀ᶠ t : ℝ in 𝓝[>] 0, t ∈ Ioo (0:ℝ) 1 := Ioo_mem_nhdsGT one_pos
    filter_upwards [this] with t ht
    have h0 := ht.1
    rw [← Real.rpow_natCast, ← Real.rpow_mul h0.le, one_mul, Real.norm_of_nonneg (by positivity),
        Real.norm_of_nonneg (by positivity)]
    apply Real.rpow_le_rpow_of_exponent_ge h0 ht.2.le
    rw [neg_mul, neg_le_neg_iff, div_mul_eq_mul_div, div_le_iff₀ (by positivity)]
    nlinarith
  refine IsBigO.trans (IsBigO.of_bound 1 ?_) h1
  filter_upwards [self_mem_nhdsWithin] with t ht
  have h0 : (0:ℝ) < t := ht
  have : Real.exp (-t) ≤ 1 := Real.exp_le_one_iff.2 (by linarith)
  simp only [lgF, Complex.norm_real, norm_mul, one_mul]
  rw [Real.norm_of_nonneg (Real.exp_pos _).le]
  exact mul_le_of_le_one_right (norm_nonneg _) this

theorem lgF_loc (n : ℕ) : LocallyIntegrableOn (lgF n) (Ioi 0) := by
  refine ContinuousOn.locallyIntegrableOn ?_ measurableSet_Ioi
  unfold lgF
  refine Complex.continuous_ofReal.comp_continuousOn ?_
  refine ContinuousOn.mul (ContinuousOn.pow ?_ n) (by fun_prop)
  exact Real.continuousOn_log.mono fun x hx => (ne_of_gt hx : x ≠ 0)

theorem lgF_mellin (n : ℕ) {s : ℝ} : mellin (lgF n) s = LG n s := by
  rw [mellin, LG, ← integral_complex_ofReal]
  refine setIntegral_congr_fun measurableSet_Ioi fun t ht => ?_
  have : (0:ℝ) ≤ t := le_of_lt ht
  simp [lgF, Complex.ofReal_cpow this]

theorem LG_deriv (n : ℕ) {s : ℝ} (hs : 0 < s) : HasDerivAt (LG n) (LG (n + 1) s) s := by
  have h := (mellin_hasDerivAt_of_isBigO_rpow (a := s + 1) (b := s / 2) (s := (s:ℂ)) (lgF_loc n)
    (lgF_top n _) (by simp) (lgF_bot n (by positivity)) (by simp; linarith)).2
  rw [lgF_succ, lgF_mellin] at h
  have h2 := h.real_of_complex
  simpa [lgF_mellin] using h2

theorem LG_integrable (n : ℕ) {s : ℝ} (hs : 0 < s) :
    IntegrableOn (fun t => t ^ (s - 1) * (Real.log t ^ n * Real.exp (-t))) (Ioi 0) := by
  have h := mellinConvergent_of_isBigO_rpow (a := s + 1) (b := s / 2) (s := (s:ℂ)) (lgF_loc n)
    (lgF_top n _) (by simp) (lgF_bot n (by positivity)) (by simp; linarith)
  have h2 := h.re
  refine IntegrableOn.congr_fun h2 (fun t ht => ?_) measurableSet_Ioi
  have : (0:ℝ) ≤ t := le_of_lt ht
  have e : ((t:ℂ) ^ ((s:ℂ) - 1) • lgF n t) = ((t ^ (s - 1) * (Real.log t ^ n * Real.exp (-t)) : ℝ) : ℂ) := by
    simp [lgF, Complex.ofReal_cpow this]
  simp only [e, RCLike.re_to_complex, Complex.ofReal_re]

theorem LG_zero {s : ℝ} (hs : 0 < s) : LG 0 s = Real.Gamma s := by
  rw [Real.Gamma_eq_integral hs, LG]
  refine setIntegral_congr_fun measurableSet_Ioi fun t _ => ?_
  simp [mul_comm]

theorem Gamma_deriv {s : ℝ} (hs : 0 < s) : HasDerivAt Real.Gamma (LG 1 s) s := by
  refine (LG_deriv 0 hs).congr_of_eventuallyEq ?_
  filter_upwards [lt_mem_nhds hs] with t ht using (LG_zero ht).symm

theorem LG_one_one : LG 1 1 = -Real.eulerMascheroniConstant :=
  (Gamma_deriv one_pos).unique Real.hasDerivAt_Gamma_one

/-- `Γ''(1) = γ² + π²/6`, from the reflection formula. -/
theorem LG_two_one : LG 2 1 = Real.eulerMascheroniConstant ^ 2 + Real.pi ^ 2 / 6 := by
  set A : ℕ → ℝ → ℝ := fun n x => LG n (1 + x)
  set B : ℕ → ℝ → ℝ := fun n x => LG n (1 - x)
  have dA : ∀ n x, -1 < x → HasDerivAt (A n) (A (n + 1) x) x := fun n x hx =>
    (LG_deriv n (by linarith : 0 < 1 + x)).comp_const_add 1 x
  have dB : ∀ n x, x < 1 → HasDerivAt (B n) (-B (n + 1) x) x := fun n x hx => by
    have := (LG_deriv n (by linarith : 0 < 1 - x)).comp_const_sub 1 x
    exact this
  have ds : ∀ x, HasDerivAt (fun x => Real.sin (Real.pi * x)) (Real.pi * Real.cos (Real.pi * x)) x := fun x => by
    have := (((hasDerivAt_id x).const_mul Real.pi)).sin
    simpa [mul_comm] using this
  have dc : ∀ x, HasDerivAt (fun x => Real.cos (Real.pi * x)) (-(Real.pi * Real.sin (Real.pi * x))) x := fun x => by
    have := (((hasDerivAt_id x).const_mul Real.pi)).cos
    simpa [mul_comm] using this
  have h0 : ∀ x ∈ Ioo (-1:ℝ) 1, A 0 x * B 0 x * Real.sin (Real.pi * x) - Real.pi * x = 0 := by
    intro x hx
    by_cases hx0 : x = 0
    · simp [hx0]
    · have e1 : A 0 x = x * Real.Gamma x := by
        simp only [A]; rw [LG_zero (by linarith [hx.1]), add_comm, Real.Gamma_add_one hx0]
      have e2 : B 0 x = Real.Gamma (1 - x) := by simp only [B]; rw [LG_zero (by linarith [hx.2])]
      have hr := Real.Gamma_mul_Gamma_one_sub x
      have hs : Real.sin (Real.pi * x) ≠ 0 := by
        rcases lt_or_gt_of_ne hx0 with h | h
        · have : 0 < Real.sin (Real.pi * (-x)) := Real.sin_pos_of_pos_of_lt_pi
            (by have := Real.pi_pos; nlinarith) (by have := Real.pi_pos; nlinarith [hx.1])
          rw [mul_neg, Real.sin_neg] at this; linarith
        · exact (Real.sin_pos_of_pos_of_lt_pi (by have := Real.pi_pos; positivity)
            (by have := Real.pi_pos; nlinarith [hx.2])).ne'
      rw [e1, e2, mul_assoc x, hr]
      rw [mul_assoc, div_mul_cancel₀ _ hs]; ring
  have key : ∀ {g g' : ℝ → ℝ}, (∀ x ∈ Ioo (-1:ℝ) 1, g x = 0) → (∀ x ∈ Ioo (-1:ℝ) 1, HasDerivAt g (g' x) x) →
      ∀ x ∈ Ioo (-1:ℝ) 1, g' x = 0 := by
    intro g g' hg hd x hx
    have : g =ᶠ[𝓝 x] fun _ => 0 := by
      filter_upwards [Ioo_mem_nhds hx.1 hx.2] with y hy using hg y hy
    exact (hd x hx).unique ((hasDerivAt_const x (0:ℝ)).congr_of_eventuallyEq this)
  have h1 := key h0 (g' := fun x => (A 1 x * B 0 x - A 0 x * B 1 x) * Real.sin (Real.pi * x)
      + A 0 x * B 0 x * (Real.pi * Real.cos (Real.pi * x)) - Real.pi) (fun x hx => by
    refine ((((dA 0 x hx.1).mul (dB 0 x hx.2)).mul (ds x)).sub ((hasDerivAt_id x).const_mul Real.pi)).congr_deriv ?_
    simp only [Pi.mul_apply]; ring)
  have h2 := key h1 (g' := fun x => (A 2 x * B 0 x - 2 * (A 1 x * B 1 x) + A 0 x * B 2 x) * Real.sin (Real.pi * x)
      + 2 * (A 1 x * B 0 x - A 0 x * B 1 x) * (Real.pi * Real.cos (Real.pi * x))
      - A 0 x * B 0 x * (Real.pi * (Real.pi * Real.sin (Real.pi * x)))) (fun x hx => by
    refine ((((((dA 1 x hx.1).mul (dB 0 x hx.2)).sub ((dA 0 x hx.1).mul (dB 1 x hx.2))).mul (ds x)).add
      (((dA 0 x hx.1).mul (dB 0 x hx.2)).mul ((dc x).const_mul Real.pi))).sub_const Real.pi).congr_deriv ?_
    simp only [Pi.mul_apply, Pi.sub_apply]; ring)
  have h3 := key h2 (g' := fun x => (A 3 x * B 0 x - 3 * (A 2 x * B 1 x) + 3 * (A 1 x * B 2 x) - A 0 x * B 3 x) * Real.sin (Real.pi * x)
      + 3 * (A 2 x * B 0 x - 2 * (A 1 x * B 1 x) + A 0 x * B 2 x) * (Real.pi * Real.cos (Real.pi * x))
      - 3 * (A 1 x * B 0 x - A 0 x * B 1 x) * (Real.pi * (Real.pi * Real.sin (Real.pi * x)))
      - A 0 x * B 0 x * (Real.pi * (Real.pi * (Real.pi * Real.cos (Real.pi * x))))) (fun x hx => by
    refine (((((((dA 2 x hx.1).mul (dB 0 x hx.2)).sub (((dA 1 x hx.1).mul (dB 1 x hx.2)).const_mul 2)).add
      ((dA 0 x hx.1).mul (dB 2 x hx.2))).mul (ds x)).add
      (((((dA 1 x hx.1).mul (dB 0 x hx.2)).sub ((dA 0 x hx.1).mul (dB 1 x hx.2))).const_mul 2).mul
        ((dc x).const_mul Real.pi))).sub
      (((dA 0 x hx.1).mul (dB 0 x hx.2)).mul (((ds x).const_mul Real.pi).const_mul Real.pi))).congr_deriv ?_
    simp only [Pi.mul_apply, Pi.sub_apply, Pi.add_apply]; ring)
  have h := h3 0 (by norm_num)
  simp only [A, B, add_zero, sub_zero, mul_zero, Real.sin_zero, Real.cos_zero, mul_one] at h
  rw [LG_zero one_pos, Real.Gamma_one, LG_one_one] at h
  have hp := Real.pi_pos
  have : 3 * (2 * LG 2 1 - 2 * Real.eulerMascheroniConstant ^ 2) * Real.pi = Real.pi ^ 2 * Real.pi := by
    linear_combination h
  have := mul_right_cancel₀ hp.ne' this
  linarith

end Mpsci
