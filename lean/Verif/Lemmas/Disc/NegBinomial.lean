import Verif.Lemmas.Discrete
import Verif.Model.Disc.NegBinomial
import Mathlib.Analysis.Analytic.Binomial

/-! The negative binomial masses. -/

namespace Mpsci.negative_binomial

open Classical Num Spec Finset

/-- The mass at `k`: failures before the `r`-th success, `p` being the probability of a failure. -/
noncomputable def N (r p : ℝ) (k : ℕ) : ℝ := Real.Gamma (k + r) / (k.factorial * Real.Gamma r) * (1 - p) ^ r * p ^ k

variable {r p : ℝ}

theorem multichoose_eq (h : 0 < r) (k : ℕ) : Ring.multichoose r k = Real.Gamma (k + r) / (k.factorial * Real.Gamma r) := by
  have hG := (Real.Gamma_pos_of_pos h).ne'
  have hf : (k.factorial : ℝ) ≠ 0 := by exact_mod_cast k.factorial_ne_zero
  have h1 := Ring.factorial_nsmul_multichoose_eq_ascPochhammer r k
  have h2 : ∀ k : ℕ, (ascPochhammer ℕ k).smeval r * Real.Gamma r = Real.Gamma (k + r) := by
    intro k
    induction k with
    | zero => simp
    | succ k ih =>
      have h3 : (k:ℝ) + r ≠ 0 := by positivity
      rw [Polynomial.ascPochhammer_smeval_eq_eval] at ih ⊢
      rw [ascPochhammer_succ_eval, show ((k + 1 : ℕ) : ℝ) + r = k + r + 1 by push_cast; ring, Real.Gamma_add_one h3, ← ih]
      ring
  rw [eq_div_iff (by positivity), ← h2, ← h1, nsmul_eq_mul]
  ring

theorem N_nonneg (hr : 0 < r) (h0 : 0 ≤ p) (h1 : p ≤ 1) (k : ℕ) : 0 ≤ N r p k := by
  have h2 : 0 ≤ 1 - p := by linarith
  have h3 : 0 < (k:ℝ) + r := by positivity
  have := Real.Gamma_pos_of_pos hr
  have := Real.Gamma_pos_of_pos h3
  unfold N; positivity

theorem N_pos (hr : 0 < r) (h0 : 0 < p) (h1 : p < 1) (k : ℕ) : 0 < N r p k := by
  have h2 : 0 < 1 - p := by linarith
  have h3 : 0 < (k:ℝ) + r := by positivity
  have := Real.Gamma_pos_of_pos hr
  have := Real.Gamma_pos_of_pos h3
  unfold N; positivity

theorem N_sum (hr : 0 < r) (h0 : 0 ≤ p) (h1 : p < 1) : HasSum (N r p) 1 := by
  have h2 : 0 < 1 - p := by linarith
  have hs := (Real.one_div_one_sub_rpow_hasFPowerSeriesOnBall_zero r).hasSum (y := p)
    (by simp [abs_lt, enorm_eq_nnnorm, ← NNReal.coe_lt_coe, Real.norm_eq_abs]; constructor <;> linarith)
  have h3 := hs.mul_left ((1 - p) ^ r)
  refine hasSum_of h3 (fun k => ?_) ?_
  · rw [FormalMultilinearSeries.ofScalars_apply_eq, Ring.choose, show r + (k:ℝ) - 1 - k + 1 = r by ring, multichoose_eq hr, N, smul_eq_mul]
    ring
  · rw [zero_add, mul_one_div, div_self (Real.rpow_pos_of_pos h2 r).ne']

theorem N_succ (hr : 0 < r) (h1 : p < 1) (k : ℕ) : ((k:ℝ) + 1) * N r p (k + 1) = r * p / (1 - p) * N (r + 1) p k := by
  have h2 : 1 - p ≠ 0 := by linarith
  have hG := (Real.Gamma_pos_of_pos hr).ne'
  have hf : (k.factorial : ℝ) ≠ 0 := by exact_mod_cast k.factorial_ne_zero
  unfold N
  rw [Real.Gamma_add_one hr.ne', Nat.factorial_succ, Real.rpow_add_one h2, show ((k + 1 : ℕ) : ℝ) + r = k + (r + 1) by push_cast; ring]
  push_cast
  field_simp
  ring

theorem N_ratio (hr : 0 < r) (k : ℕ) : ((k:ℝ) + 1) * N r p (k + 1) = (k + r) * p * N r p k := by
  have hG := (Real.Gamma_pos_of_pos hr).ne'
  have hf : (k.factorial : ℝ) ≠ 0 := by exact_mod_cast k.factorial_ne_zero
  have h3 : (k:ℝ) + r ≠ 0 := by positivity
  unfold N
  rw [Nat.factorial_succ, show ((k + 1 : ℕ) : ℝ) + r = k + r + 1 by push_cast; ring, Real.Gamma_add_one h3]
  push_cast
  field_simp
  ring

theorem N_mean (hr : 0 < r) (h0 : 0 ≤ p) (h1 : p < 1) : HasSum (fun k : ℕ => (k:ℝ) * N r p k) (r * p / (1 - p)) := by
  rw [← hasSum_nat_add_iff' 1]
  refine hasSum_of ((N_sum (r := r + 1) (by positivity) h0 h1).mul_left (r * p / (1 - p))) (fun k => ?_) (by simp)
  have := N_succ hr h1 k
  push_cast; exact this

theorem N_mean2 (hr : 0 < r) (h0 : 0 ≤ p) (h1 : p < 1) :
    HasSum (fun k : ℕ => (k:ℝ) * ((k:ℝ) - 1) * N r p k) (r * (r + 1) * (p / (1 - p)) ^ 2) := by
  rw [← hasSum_nat_add_iff' 1]
  refine hasSum_of ((N_mean (r := r + 1) (by positivity) h0 h1).mul_left (r * p / (1 - p))) (fun k => ?_) (by simp; ring)
  have := N_succ hr h1 k
  push_cast
  linear_combination k * this

theorem hasDerivAt_tail (hr : 0 < r) (k : ℕ) {t : ℝ} (ht : t < 1) :
    HasDerivAt (fun t => ∑ j ∈ range (k + 1), N r t j)
      (-(Real.Gamma (k + 1 + r) / (k.factorial * Real.Gamma r) * (t ^ k * (1 - t) ^ (r - 1)))) t := by
  have hG := (Real.Gamma_pos_of_pos hr).ne'
  have h2 : 1 - t ≠ 0 := by linarith
  have a : HasDerivAt (fun t : ℝ => (1 - t) ^ r) (-(r * (1 - t) ^ (r - 1))) t := by
    have := ((hasDerivAt_const t (1:ℝ)).sub (hasDerivAt_id t)).rpow_const (p := r) (Or.inl h2)
    refine this.congr_deriv ?_
    simp
  have hr1 : (1 - t) ^ r = (1 - t) ^ (r - 1) * (1 - t) := by
    rw [← Real.rpow_add_one h2]; congr 1; ring
  induction k with
  | zero =>
    simp only [zero_add, sum_range_one]
    have e : (fun t => N r t 0) = fun t => (1 - t) ^ r := by funext t; simp [N, hG]
    rw [e]
    refine a.congr_deriv ?_
    rw [show ((0:ℕ):ℝ) + 1 + r = r + 1 by simp [add_comm], Real.Gamma_add_one hr.ne']
    simp only [Nat.factorial_zero, Nat.cast_one, one_mul, pow_zero, mul_div_assoc, div_self hG, mul_one]
  | succ k ih =>
    simp only [sum_range_succ _ (k + 1)]
    have b : HasDerivAt (fun t : ℝ => t ^ (k + 1)) (((k:ℝ) + 1) * t ^ k) t := by
      refine (hasDerivAt_pow (k + 1) t).congr_deriv ?_
      simp
    have h1 := (a.mul b).const_mul (Real.Gamma ((k + 1 : ℕ) + r) / ((k + 1).factorial * Real.Gamma r))
    have e : (fun t => N r t (k + 1)) = fun t => Real.Gamma ((k + 1 : ℕ) + r) / ((k + 1).factorial * Real.Gamma r) *
        ((1 - t) ^ r * t ^ (k + 1)) := by funext t; simp only [N]; ring
    have h1' : HasDerivAt (fun t => N r t (k + 1)) _ t := e ▸ h1
    refine (ih.add h1').congr_deriv ?_
    have h3 : (k:ℝ) + 1 + r ≠ 0 := by positivity
    have hf : (k.factorial : ℝ) ≠ 0 := by exact_mod_cast k.factorial_ne_zero
    rw [hr1, Nat.factorial_succ, show ((k + 1 : ℕ) : ℝ) + 1 + r = k + 1 + r + 1 by push_cast; ring, Real.Gamma_add_one h3]
    push_cast
    field_simp
    ring

/-- The lower tail of the distribution as an incomplete beta function. -/
theorem upper_eq (hr0 : 0 < r) (k : ℕ) (h0 : 0 ≤ p) (h1 : p < 1) :
    1 - ∑ j ∈ range (k + 1), N r p j = betaInt (k + 1) r 0 p / betaFn (k + 1) r := by
  have hd : ∀ t ∈ Set.uIcc 0 p, HasDerivAt (fun t => ∑ j ∈ range (k + 1), N r t j)
      (-(Real.Gamma (k + 1 + r) / (k.factorial * Real.Gamma r) * (t ^ k * (1 - t) ^ (r - 1)))) t := fun t ht => by
    rw [Set.uIcc_of_le h0] at ht
    exact hasDerivAt_tail hr0 k (ht.2.trans_lt h1)
  have hc : ContinuousOn (fun t : ℝ => -(Real.Gamma (k + 1 + r) / (k.factorial * Real.Gamma r) * (t ^ k * (1 - t) ^ (r - 1))))
      (Set.uIcc 0 p) := by
    have : ContinuousOn (fun t : ℝ => (1 - t) ^ (r - 1)) (Set.uIcc 0 p) :=
      ContinuousOn.rpow_const (by fun_prop) fun t ht => Or.inl (by rw [Set.uIcc_of_le h0] at ht; linarith [ht.2])
    fun_prop
  have ftc := intervalIntegral.integral_eq_sub_of_hasDerivAt hd hc.intervalIntegrable
  rw [intervalIntegral.integral_neg, intervalIntegral.integral_const_mul] at ftc
  have e1 : (∫ x in (0:ℝ)..p, x ^ k * (1 - x) ^ (r - 1)) = betaInt (k + 1) r 0 p := by
    unfold betaInt
    congr 1
    funext t
    rw [show (k:ℝ) + 1 - 1 = ((k : ℕ) : ℝ) by ring, Real.rpow_natCast]
  have e2 : ∑ j ∈ range (k + 1), N r 0 j = 1 := by
    have hG := (Real.Gamma_pos_of_pos hr0).ne'
    rw [sum_range_succ']
    simp [N, hG]
  rw [e1, e2] at ftc
  have e3 : betaFn (k + 1) r = k.factorial * Real.Gamma r / Real.Gamma (k + 1 + r) := by
    rw [betaFn, Real.Gamma_nat_eq_factorial]
  have hG := (Real.Gamma_pos_of_pos hr0).ne'
  have hG2 := (Real.Gamma_pos_of_pos (show 0 < (k:ℝ) + 1 + r by positivity)).ne'
  have hf : (k.factorial : ℝ) ≠ 0 := by exact_mod_cast k.factorial_ne_zero
  rw [e3]
  have : betaInt (k + 1) r 0 p / (k.factorial * Real.Gamma r / Real.Gamma (k + 1 + r)) =
    Real.Gamma (k + 1 + r) / (k.factorial * Real.Gamma r) * betaInt (k + 1) r 0 p := by field_simp
  rw [this]; linarith

end Mpsci.negative_binomial
