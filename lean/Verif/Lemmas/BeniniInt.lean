import Verif.Lemmas.Dist.Benini
import Verif.Lemmas.Moments

/-! The moments of the Benini distribution, by an antiderivative. -/

namespace Mpsci.benini

open Classical MeasureTheory Set Filter Topology

variable {a b s : ℝ}

/-- `∫_0^L e^{n t - H(t)} dt` up to a constant. -/
noncomputable def A (a b n L : ℝ) : ℝ :=
  Real.sqrt Real.pi / (2 * Real.sqrt b) * Real.exp ((a - n) ^ 2 / (4 * b)) * erfR (Real.sqrt b * L + (a - n) / (2 * Real.sqrt b))

/-- The `n`-th moment for scale 1. -/
noncomputable def mom (a b n : ℝ) : ℝ :=
  1 + n * (Real.sqrt Real.pi / (2 * Real.sqrt b) * Real.exp ((a - n) ^ 2 / (4 * b)) * (1 - erfR ((a - n) / (2 * Real.sqrt b))))

theorem hasDerivAt_A (hb : 0 < b) (n L : ℝ) : HasDerivAt (A a b n) (Real.exp (n * L - H a b L)) L := by
  have hsb := Real.sqrt_pos.2 hb
  have hsp := Real.sqrt_pos.2 Real.pi_pos
  have h1 : HasDerivAt (fun L => Real.sqrt b * L + (a - n) / (2 * Real.sqrt b)) (Real.sqrt b) L := by
    simpa using ((hasDerivAt_id L).const_mul (Real.sqrt b)).add_const ((a - n) / (2 * Real.sqrt b))
  have h2 := (HasDerivAt.comp L (hasDerivAt_erfR _) h1).const_mul (Real.sqrt Real.pi / (2 * Real.sqrt b) * Real.exp ((a - n) ^ 2 / (4 * b)))
  refine h2.congr_deriv ?_
  have e : (Real.sqrt b * L + (a - n) / (2 * Real.sqrt b)) ^ 2 = b * L ^ 2 + (a - n) * L + (a - n) ^ 2 / (4 * b) := by
    have h := Real.sq_sqrt hb.le
    have : Real.sqrt b * L * ((a - n) / (2 * Real.sqrt b)) = L * (a - n) / 2 := by field_simp
    rw [add_sq, mul_pow, h, div_pow, mul_pow, h, mul_assoc 2, this]; ring
  rw [e]
  have e2 : Real.exp (n * L - H a b L) = Real.exp ((a - n) ^ 2 / (4 * b)) * Real.exp (-(b * L ^ 2 + (a - n) * L + (a - n) ^ 2 / (4 * b))) := by
    rw [← Real.exp_add]; congr 1; rw [H]; ring
  rw [e2]
  field_simp

theorem tendsto_A (hb : 0 < b) (n : ℝ) :
    Tendsto (A a b n) atTop (𝓝 (Real.sqrt Real.pi / (2 * Real.sqrt b) * Real.exp ((a - n) ^ 2 / (4 * b)))) := by
  have hsb := Real.sqrt_pos.2 hb
  have h1 : Tendsto (fun L => Real.sqrt b * L + (a - n) / (2 * Real.sqrt b)) atTop atTop :=
    tendsto_atTop_add_const_right _ _ (tendsto_id.const_mul_atTop hsb)
  have h := (erfR_atTop.comp h1).const_mul (Real.sqrt Real.pi / (2 * Real.sqrt b) * Real.exp ((a - n) ^ 2 / (4 * b)))
  rw [mul_one] at h
  exact h

theorem tendsto_term (hb : 0 < b) (n : ℝ) : Tendsto (fun L => Real.exp (n * L - H a b L)) atTop (𝓝 0) := by
  refine Real.tendsto_exp_atBot.comp ?_
  have h1 : Tendsto (fun L : ℝ => (n - a) + -b * L) atTop atBot :=
    tendsto_atBot_add_const_left _ _ (tendsto_id.const_mul_atTop_of_neg (neg_lt_zero.2 hb))
  refine (tendsto_id.atTop_mul_atBot₀ h1).congr fun L => ?_
  simp only [id, H]; ring

theorem moment (ha : 0 < a) (hb : 0 < b) (n : ℕ) :
    Integrable (fun z => z ^ n * f a b z) ∧ ∫ z, z ^ n * f a b z = mom a b n := by
  set G : ℝ → ℝ := fun z => -Real.exp (n * Real.log z - H a b (Real.log z)) + n * A a b n (Real.log z) with hG
  have hz : ∀ z, z < 1 → z ^ n * f a b z = 0 := fun z h => by rw [f, if_pos h, mul_zero]
  have hd : ∀ z, 1 ≤ z → HasDerivAt G (z ^ n * f a b z) z := fun z hz => by
    have h0 : 0 < z := by linarith
    have hl := Real.hasDerivAt_log h0.ne'
    have hH : HasDerivAt (fun L => (n:ℝ) * L - H a b L) (n - (a + 2 * b * Real.log z)) (Real.log z) := by
      have h1 := (hasDerivAt_id (Real.log z)).const_mul (n:ℝ)
      have h2 := (hasDerivAt_id (Real.log z)).mul (((hasDerivAt_id (Real.log z)).const_mul b).const_add a)
      refine (h1.sub h2).congr_deriv ?_
      simp only [id]; ring
    have h3 := (HasDerivAt.comp z hH hl).exp.neg
    have h4 := (HasDerivAt.comp z (hasDerivAt_A (a := a) hb n (Real.log z)) hl).const_mul (n:ℝ)
    refine (h3.add h4).congr_deriv ?_
    rw [f, if_neg (not_lt.2 hz)]
    simp only [Function.comp]
    have e : Real.exp (n * Real.log z - H a b (Real.log z)) = z ^ n * Real.exp (-H a b (Real.log z)) := by
      rw [sub_eq_add_neg, Real.exp_add, mul_comm (n:ℝ), Real.exp_mul, Real.exp_log h0, Real.rpow_natCast]
    rw [e]
    field_simp; ring
  have hg : ∀ z, 1 < z → 0 ≤ z ^ n * f a b z := fun z hz =>
    mul_nonneg (pow_nonneg (by linarith) n) (f_pos ha hb (not_lt.2 hz.le)).le
  have ht : Tendsto G atTop (𝓝 (-0 + n * (Real.sqrt Real.pi / (2 * Real.sqrt b) * Real.exp ((a - n) ^ 2 / (4 * b))))) :=
    ((tendsto_term hb n).neg.add ((tendsto_A hb n).const_mul (n:ℝ))).comp Real.tendsto_log_atTop
  have i1 := integrableOn_Ioi_deriv_of_nonneg (hd 1 le_rfl).continuousAt.continuousWithinAt (fun x hx => hd x (le_of_lt hx)) (fun x hx => hg x hx) ht
  have v1 := integral_Ioi_of_hasDerivAt_of_nonneg (hd 1 le_rfl).continuousAt.continuousWithinAt (fun x hx => hd x (le_of_lt hx)) (fun x hx => hg x hx) ht
  have hae : (Ioi (1:ℝ)).indicator (fun z => z ^ n * f a b z) =ᵐ[volume] fun z => z ^ n * f a b z := by
    have : ∀ᵐ x : ℝ, x ≠ 1 := by simp [ae_iff, measure_singleton]
    filter_upwards [this] with z hne
    rcases lt_or_gt_of_ne hne with h | h
    · rw [indicator_of_notMem (by simpa using h.le), hz z h]
    · rw [indicator_of_mem (show z ∈ Ioi 1 from h)]
  refine ⟨((integrable_indicator_iff measurableSet_Ioi).2 i1).congr hae, ?_⟩
  rw [← integral_congr_ae hae, integral_indicator measurableSet_Ioi, v1, hG]
  simp only [Real.log_one, H, A, mul_zero, zero_mul, sub_zero, Real.exp_zero, zero_add]
  rw [mom]; ring

theorem hasMV (ha : 0 < a) (hb : 0 < b) : HasMV (f a b) (mom a b 1) (mom a b 2 - mom a b 1 ^ 2) where
  int0 := by simpa using (moment ha hb 0).1
  one := by simpa [mom] using (moment ha hb 0).2
  int1 := by simpa using (moment ha hb 1).1
  mean := by simpa using (moment ha hb 1).2
  int2 := (moment ha hb 2).1
  second := by rw [(moment ha hb 2).2]; push_cast; ring

/-- With a scale. -/
theorem moment_scale (ha : 0 < a) (hb : 0 < b) (hs : 0 < s) (n : ℕ) :
    Integrable (fun x => x ^ n * (f a b (x / s) / s)) ∧ ∫ x, x ^ n * (f a b (x / s) / s) = s ^ n * mom a b n := by
  have e : (fun x => x ^ n * (f a b (x / s) / s)) = fun x => (s ^ n / s) * (fun z => z ^ n * f a b z) (x / s) := by
    funext x
    simp only [div_pow]
    field_simp
  rw [e]
  refine ⟨((moment ha hb n).1.comp_div hs.ne').const_mul _, ?_⟩
  rw [integral_const_mul, Measure.integral_comp_div (fun z => z ^ n * f a b z), (moment ha hb n).2, abs_of_pos hs, smul_eq_mul]
  field_simp

end Mpsci.benini
