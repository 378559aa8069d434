import Verif.Model.Disc.Poisson
import Verif.Lemmas.Discrete
import Mathlib.Analysis.SpecialFunctions.Exponential
import Mathlib.MeasureTheory.Integral.IntervalIntegral.FundThmCalculus
import Mathlib.MeasureTheory.Integral.IntegralEqImproper

/-! Sums of Poisson probabilities. -/

namespace Mpsci.poisson

open Classical Num Finset MeasureTheory

/-- The Poisson probabilities. -/
noncomputable def P (lam : ℝ) (k : ℕ) : ℝ := lam ^ k * Real.exp (-lam) / k.factorial

theorem P_pos {lam : ℝ} (h : 0 < lam) (k : ℕ) : 0 < P lam k := by unfold P; positivity

theorem P_succ (lam : ℝ) (k : ℕ) : ((k:ℝ) + 1) * P lam (k + 1) = lam * P lam k := by
  have : ((k.factorial : ℕ) : ℝ) ≠ 0 := by exact_mod_cast k.factorial_ne_zero
  have h2 : (k:ℝ) + 1 ≠ 0 := by positivity
  unfold P
  rw [Nat.factorial_succ]
  push_cast
  field_simp
  ring

theorem P_sum (lam : ℝ) : HasSum (P lam) 1 := by
  have h := NormedSpace.expSeries_div_hasSum_exp (𝔸 := ℝ) lam
  rw [← Real.exp_eq_exp_ℝ] at h
  have := h.mul_right (Real.exp (-lam))
  rw [← Real.exp_add, add_neg_cancel, Real.exp_zero] at this
  exact hasSum_of this (fun k => by unfold P; ring) rfl

theorem P_mean (lam : ℝ) : HasSum (fun k : ℕ => (k:ℝ) * P lam k) lam := by
  rw [← hasSum_nat_add_iff' 1]
  simp only [sum_range_one, Nat.cast_zero, zero_mul, sub_zero]
  have := (P_sum lam).mul_left lam
  rw [mul_one] at this
  exact hasSum_of this (fun k => by push_cast; exact P_succ lam k) rfl

theorem P_mean2 (lam : ℝ) : HasSum (fun k : ℕ => (k:ℝ) * ((k:ℝ) - 1) * P lam k) (lam ^ 2) := by
  rw [← hasSum_nat_add_iff' 1]
  simp only [sum_range_one, Nat.cast_zero, zero_mul, sub_zero]
  have := (P_mean lam).mul_left lam
  rw [← sq] at this
  exact hasSum_of this (fun k => by push_cast; linear_combination (k:ℝ) * P_succ lam k) rfl

theorem hasDerivAt_tail (k : ℕ) (t : ℝ) :
    HasDerivAt (fun t => ∑ j ∈ range (k + 1), P t j) (-(P t k)) t := by
  have hP : ∀ j : ℕ, HasDerivAt (fun t => P t j)
      (((j:ℝ) * t ^ (j - 1) * Real.exp (-t) - t ^ j * Real.exp (-t)) / j.factorial) t := by
    intro j
    have h1 := (hasDerivAt_pow j t).mul ((hasDerivAt_id t).neg.exp)
    refine (h1.div_const (j.factorial : ℝ)).congr_deriv ?_
    simp; ring
  induction k with
  | zero =>
    simp only [zero_add, sum_range_one]
    refine (hP 0).congr_deriv ?_
    simp [P]
  | succ k ih =>
    simp only [sum_range_succ _ (k + 1)]
    refine (ih.add (hP (k + 1))).congr_deriv ?_
    have : ((k.factorial : ℕ) : ℝ) ≠ 0 := by exact_mod_cast k.factorial_ne_zero
    have h2 : (k:ℝ) + 1 ≠ 0 := by positivity
    unfold P
    rw [Nat.factorial_succ]
    push_cast
    field_simp
    ring

theorem sum_le (k : ℕ) {lam : ℝ} (h : 0 ≤ lam) :
    ∑ j ∈ range (k + 1), P lam j =
      1 - (∫ t in Set.Ioc 0 lam, t ^ ((k:ℝ) + 1 - 1) * Real.exp (-t)) / Real.Gamma (k + 1) := by
  have hc : Continuous fun t : ℝ => -(P t k) := by unfold P; fun_prop
  have ftc := intervalIntegral.integral_eq_sub_of_hasDerivAt (a := 0) (b := lam)
    (fun x _ => hasDerivAt_tail k x) (hc.intervalIntegrable _ _)
  have e0 : ∑ j ∈ range (k + 1), P 0 j = 1 := by
    rw [sum_range_succ', sum_eq_zero (fun j _ => by simp [P])]
    simp [P]
  rw [e0, intervalIntegral.integral_of_le h, integral_neg] at ftc
  have e1 : ∀ t : ℝ, t ^ ((k:ℝ) + 1 - 1) * Real.exp (-t) = P t k * k.factorial := by
    intro t
    have : ((k.factorial : ℕ) : ℝ) ≠ 0 := by exact_mod_cast k.factorial_ne_zero
    rw [add_sub_cancel_right, Real.rpow_natCast, P, div_mul_cancel₀ _ this]
  simp only [e1]
  rw [integral_mul_const, Real.Gamma_nat_eq_factorial,
    mul_div_cancel_right₀ _ (by exact_mod_cast k.factorial_ne_zero : ((k.factorial : ℕ) : ℝ) ≠ 0)]
  linarith

/-- Upper plus lower incomplete gamma function. -/
theorem gamma_split {a x : ℝ} (ha : 0 < a) (hx : 0 ≤ x) :
    (∫ t in Set.Ioc 0 x, t ^ (a - 1) * Real.exp (-t)) +
      (∫ t in Set.Ioi x, t ^ (a - 1) * Real.exp (-t)) = Real.Gamma a := by
  have hint : IntegrableOn (fun t : ℝ => t ^ (a - 1) * Real.exp (-t)) (Set.Ioi 0) := by
    have := Real.GammaIntegral_convergent ha
    simpa [mul_comm] using this
  rw [← setIntegral_union (Set.Ioc_disjoint_Ioi le_rfl) measurableSet_Ioi
    (hint.mono_set Set.Ioc_subset_Ioi_self) (hint.mono_set (Set.Ioi_subset_Ioi hx)),
    Set.Ioc_union_Ioi_eq_Ioi hx, Real.Gamma_eq_integral ha]
  simp only [mul_comm]

end Mpsci.poisson
