import Verif.Lemmas.Discrete
import Verif.Spec.DiscMoments
import Verif.Model.Disc.Logseries
import Mathlib.Analysis.SpecialFunctions.Log.Deriv
import Mathlib.Analysis.SpecificLimits.Normed
import Mathlib.MeasureTheory.Integral.IntervalIntegral.FundThmCalculus

/-! The masses of the logarithmic series distribution. -/

namespace Mpsci.logseries

open Classical Num Spec Finset

/-- The mass at `k`. -/
noncomputable def S (p : ℝ) (k : ℕ) : ℝ := p ^ k / (k * -Real.log (1 - p))

variable {p : ℝ}

theorem L_pos (h0 : 0 < p) (h1 : p < 1) : 0 < -Real.log (1 - p) := by
  have := Real.log_neg (show 0 < 1 - p by linarith) (by linarith)
  linarith

theorem S_zero (p : ℝ) : S p 0 = 0 := by simp [S]

theorem S_pos (h0 : 0 < p) (h1 : p < 1) {k : ℕ} (hk : 0 < k) : 0 < S p k := by
  have := L_pos h0 h1
  have hk : (0:ℝ) < k := by exact_mod_cast hk
  unfold S; positivity

theorem S_nonneg (h0 : 0 < p) (h1 : p < 1) (k : ℕ) : 0 ≤ S p k := by
  have := L_pos h0 h1
  unfold S; positivity

theorem S_sum (h0 : 0 < p) (h1 : p < 1) : HasSum (S p) 1 := by
  have hL := L_pos h0 h1
  have h := (Real.hasSum_pow_div_log_of_abs_lt_one (show |p| < 1 by rw [abs_of_pos h0]; exact h1)).div_const (-Real.log (1 - p))
  rw [← hasSum_nat_add_iff' 1]
  refine hasSum_of h (fun k => ?_) ?_
  · simp only [S]; push_cast; rw [div_div]
  · simp [S_zero, div_self hL.ne']

/-- The factorial moments. -/
theorem S_fact (h0 : 0 < p) (h1 : p < 1) (n : ℕ) : HasSum (fun k : ℕ => ((k:ℝ) * (k - 1).descFactorial n) * S p k)
    (n.factorial * p ^ (n + 1) / (1 - p) ^ (n + 1) / -Real.log (1 - p)) := by
  have hL := L_pos h0 h1
  have h := (hasSum_choose_mul_geometric_of_norm_lt_one n (show ‖p‖ < 1 by rw [Real.norm_of_nonneg h0.le]; exact h1)).mul_left
    (n.factorial * p ^ (n + 1) / -Real.log (1 - p))
  have hz : ∑ i ∈ range (n + 1), ((i:ℝ) * (i - 1).descFactorial n) * S p i = 0 := by
    refine Finset.sum_eq_zero fun i hi => ?_
    rcases Nat.eq_zero_or_pos i with rfl | hpos
    · simp
    · have : (i - 1).descFactorial n = 0 := Nat.descFactorial_eq_zero_iff_lt.2 (by simp at hi; omega)
      simp [this]
  rw [← hasSum_nat_add_iff' (n + 1), hz, sub_zero]
  refine hasSum_of h (fun k => ?_) (by rw [div_right_comm, mul_one_div])
  have hk : ((k + (n + 1) : ℕ) : ℝ) ≠ 0 := by positivity
  rw [show k + (n + 1) - 1 = k + n by omega, S, Nat.descFactorial_eq_factorial_mul_choose, pow_add]
  push_cast at hk ⊢
  field_simp

theorem hasDerivAt_sum (k : ℕ) {t : ℝ} (ht : t < 1) :
    HasDerivAt (fun t => -Real.log (1 - t) - ∑ j ∈ range k, t ^ (j + 1) / (j + 1)) (t ^ k / (1 - t)) t := by
  have h2 : 1 - t ≠ 0 := by linarith
  have h1 : HasDerivAt (fun t : ℝ => -Real.log (1 - t)) (1 / (1 - t)) t := by
    have := (((hasDerivAt_const t (1:ℝ)).sub (hasDerivAt_id t)).log h2).neg
    refine this.congr_deriv ?_
    simp; ring
  have h3 : HasDerivAt (fun t : ℝ => ∑ j ∈ range k, t ^ (j + 1) / ((j:ℝ) + 1)) (∑ j ∈ range k, t ^ j) t := by
    refine HasDerivAt.fun_sum fun j _ => ?_
    refine ((hasDerivAt_pow (j + 1) t).div_const ((j:ℝ) + 1)).congr_deriv ?_
    have : (j:ℝ) + 1 ≠ 0 := by positivity
    rw [Nat.cast_succ, add_tsub_cancel_right]
    field_simp
  refine (h1.sub h3).congr_deriv ?_
  rw [geom_sum_eq (by linarith)]
  have : t - 1 ≠ 0 := by linarith
  field_simp
  ring

/-- The upper tail as an integral. -/
theorem tail_eq (h0 : 0 < p) (h1 : p < 1) (k : ℕ) :
    ∑ j ∈ range (k + 1), S p j = 1 - (∫ t in (0:ℝ)..p, t ^ ((k:ℝ) + 1 - 1) / (1 - t)) / -Real.log (1 - p) := by
  have hL := L_pos h0 h1
  have hd : ∀ t ∈ Set.uIcc 0 p, HasDerivAt (fun t => -Real.log (1 - t) - ∑ j ∈ range k, t ^ (j + 1) / ((j:ℝ) + 1)) (t ^ k / (1 - t)) t := fun t ht => by
    rw [Set.uIcc_of_le h0.le] at ht
    exact hasDerivAt_sum k (ht.2.trans_lt h1)
  have hc : ContinuousOn (fun t : ℝ => t ^ k / (1 - t)) (Set.uIcc 0 p) := by
    refine ContinuousOn.div (by fun_prop) (by fun_prop) fun t ht => ?_
    rw [Set.uIcc_of_le h0.le] at ht
    linarith [ht.2]
  have ftc := intervalIntegral.integral_eq_sub_of_hasDerivAt hd hc.intervalIntegrable
  have e1 : (∫ t in (0:ℝ)..p, t ^ ((k:ℝ) + 1 - 1) / (1 - t)) = ∫ t in (0:ℝ)..p, t ^ k / (1 - t) := by
    congr 1; funext t; rw [add_sub_cancel_right, Real.rpow_natCast]
  rw [e1, ftc, Finset.sum_range_succ', S_zero]
  have e2 : ∑ j ∈ range k, S p (j + 1) = (∑ j ∈ range k, p ^ (j + 1) / ((j:ℝ) + 1)) / -Real.log (1 - p) := by
    rw [Finset.sum_div]
    refine Finset.sum_congr rfl fun j _ => ?_
    simp only [S]; push_cast; rw [div_div]
  have e3 : ∑ j ∈ range k, (0:ℝ) ^ (j + 1) / ((j:ℝ) + 1) = 0 := by simp
  rw [e2, e3]
  simp only [sub_zero, Real.log_one, neg_zero, add_zero]
  generalize ∑ j ∈ range k, p ^ (j + 1) / ((j:ℝ) + 1) = A
  generalize -Real.log (1 - p) = L at hL ⊢
  field_simp
  ring

end Mpsci.logseries
