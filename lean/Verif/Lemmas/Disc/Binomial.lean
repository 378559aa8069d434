import Verif.Model.Disc.Binomial
import Verif.Lemmas.Discrete
import Verif.Lemmas.Common
import Mathlib.RingTheory.Polynomial.Bernstein
import Mathlib.MeasureTheory.Integral.IntervalIntegral.FundThmCalculus
import Mathlib.Analysis.Calculus.Deriv.Pow

/-! Sums of binomial probabilities. -/

namespace Mpsci.binomial

open Classical Num Finset

/-- The binomial probabilities. -/
noncomputable def B (n : ℕ) (p : ℝ) (k : ℕ) : ℝ := n.choose k * p ^ k * (1 - p) ^ (n - k)

theorem B_nonneg {n : ℕ} {p : ℝ} (h0 : 0 ≤ p) (h1 : p ≤ 1) (k : ℕ) : 0 ≤ B n p k := by
  have : 0 ≤ 1 - p := by linarith
  unfold B; positivity

theorem B_zero {n k : ℕ} (p : ℝ) (h : n < k) : B n p k = 0 := by
  simp [B, Nat.choose_eq_zero_of_lt h]

theorem B_eval (n k : ℕ) (p : ℝ) : (bernsteinPolynomial ℝ n k).eval p = B n p k := by
  simp [bernsteinPolynomial, B]

theorem B_finset (n : ℕ) (p : ℝ) (c : ℕ → ℝ) :
    HasSum (fun k => c k * B n p k) (∑ k ∈ range (n + 1), c k * B n p k) :=
  hasSum_sum_of_ne_finset_zero fun k hk => by
    rw [B_zero p (by simpa using hk), mul_zero]

theorem B_sum (n : ℕ) (p : ℝ) : HasSum (B n p) 1 := by
  have := B_finset n p fun _ => 1
  have h := congrArg (Polynomial.eval p) (bernsteinPolynomial.sum ℝ n)
  simp only [Polynomial.eval_finsetSum, B_eval, Polynomial.eval_one] at h
  simpa [h] using this

theorem B_mean (n : ℕ) (p : ℝ) : HasSum (fun k : ℕ => (k : ℝ) * B n p k) (n * p) := by
  have := B_finset n p fun k => k
  have h := congrArg (Polynomial.eval p) (bernsteinPolynomial.sum_smul ℝ n)
  simp only [Polynomial.eval_finsetSum, Polynomial.eval_mul, Polynomial.eval_natCast, Polynomial.eval_X, B_eval,
    nsmul_eq_mul] at h
  rwa [h] at this

theorem B_mean2 (n : ℕ) (p : ℝ) :
    HasSum (fun k : ℕ => (k : ℝ) * ((k : ℝ) - 1) * B n p k) (n * (n - 1) * p ^ 2) := by
  have := B_finset n p fun k => k * (k - 1)
  have h := congrArg (Polynomial.eval p) (bernsteinPolynomial.sum_mul_smul ℝ n)
  have e : ∀ m : ℕ, ((m * (m - 1) : ℕ) : ℝ) = m * ((m : ℝ) - 1) := by
    intro m; cases m <;> simp
  simp only [Polynomial.eval_finsetSum, Polynomial.eval_mul, Polynomial.eval_natCast, Polynomial.eval_pow,
    Polynomial.eval_X, B_eval, nsmul_eq_mul, e] at h
  rwa [h] at this

/-- The ratio of consecutive probabilities. -/
theorem B_ratio {n k : ℕ} (h : k < n) (p : ℝ) :
    (k + 1) * (1 - p) * B n p (k + 1) = (n - k) * p * B n p k := by
  have h1 : (n.choose (k + 1) : ℝ) * (k + 1) = n.choose k * (n - k) := by
    have := Nat.choose_succ_right_eq n k
    have h2 : ((n - k : ℕ) : ℝ) = n - k := by rw [Nat.cast_sub h.le]
    rw [← h2]; exact_mod_cast this
  have h3 : (1 - p) ^ (n - k) = (1 - p) ^ (n - (k + 1)) * (1 - p) := by
    rw [← pow_succ]; congr 1; omega
  unfold B
  rw [h3, pow_succ]
  linear_combination (1 - p) * p ^ k * p * (1 - p) ^ (n - (k + 1)) * h1

theorem hasDerivAt_tail (n k : ℕ) (h : k < n) (q : ℝ) :
    HasDerivAt (fun q => ∑ j ∈ range (k + 1), B n (1 - q) j)
      ((n - k) * n.choose k * (q ^ (n - k - 1) * (1 - q) ^ k)) q := by
  induction k with
  | zero =>
    simp only [zero_add, sum_range_one, B, Nat.choose_zero_right, pow_zero, sub_sub_cancel,
      tsub_zero]
    have := hasDerivAt_pow n q
    simpa using this
  | succ k ih =>
    have ih := ih (by omega)
    simp only [sum_range_succ _ (k + 1)]
    have h1 : HasDerivAt (fun q : ℝ => B n (1 - q) (k + 1))
        (n.choose (k + 1) * (-(((k : ℝ) + 1) * (1 - q) ^ k) * q ^ (n - (k + 1)) +
          (1 - q) ^ (k + 1) * ((n - k - 1) * q ^ (n - (k + 1) - 1)))) q := by
      have a : HasDerivAt (fun q : ℝ => (1 - q) ^ (k + 1)) (-(((k : ℝ) + 1) * (1 - q) ^ k)) q := by
        have := ((hasDerivAt_const q (1:ℝ)).sub (hasDerivAt_id q)).pow (k + 1)
        refine this.congr_deriv ?_
        simp
      have b : HasDerivAt (fun q : ℝ => q ^ (n - (k + 1)))
          (((n : ℝ) - k - 1) * q ^ (n - (k + 1) - 1)) q := by
        have := hasDerivAt_pow (n - (k + 1)) q
        rw [Nat.cast_sub (by omega)] at this
        refine this.congr_deriv ?_
        push_cast; ring
      have := (a.mul b).const_mul (n.choose (k + 1) : ℝ)
      refine this.congr_of_eventuallyEq (Filter.Eventually.of_forall fun x => ?_)
      simp [B, mul_assoc]
    refine (ih.add h1).congr_deriv ?_
    have h2 : (n.choose (k + 1) : ℝ) * (k + 1) = n.choose k * (n - k) := by
      have := Nat.choose_succ_right_eq n k
      have h2 : ((n - k : ℕ) : ℝ) = n - k := by rw [Nat.cast_sub (by omega)]
      rw [← h2]; exact_mod_cast this
    rw [show n - (k + 1) = n - k - 1 by omega]
    push_cast
    linear_combination (-(1 - q) ^ k * q ^ (n - k - 1)) * h2

/-- The lower tail of the binomial distribution as an incomplete beta function. -/
theorem tail_eq {n k : ℕ} (h : k < n) {p : ℝ} :
    ∑ j ∈ range (k + 1), B n p j =
      betaInt (n - k) (k + 1) 0 (1 - p) / betaFn (n - k) (k + 1) := by
  have hd := hasDerivAt_tail n k h
  have hc : Continuous fun q : ℝ => (n - k) * n.choose k * (q ^ (n - k - 1) * (1 - q) ^ k) := by
    fun_prop
  have ftc := intervalIntegral.integral_eq_sub_of_hasDerivAt (a := 0) (b := 1 - p)
    (fun x _ => hd x) (hc.intervalIntegrable _ _)
  rw [intervalIntegral.integral_const_mul] at ftc
  have e1 : (∫ x in (0:ℝ)..(1 - p), x ^ (n - k - 1) * (1 - x) ^ k) =
      betaInt (n - k) (k + 1) 0 (1 - p) := by
    unfold betaInt
    congr 1
    funext t
    rw [show (n:ℝ) - k - 1 = ((n - k - 1 : ℕ) : ℝ) by
        rw [Nat.cast_sub (by omega), Nat.cast_sub (by omega)]; simp,
      show (k:ℝ) + 1 - 1 = ((k : ℕ) : ℝ) by ring, Real.rpow_natCast, Real.rpow_natCast]
  have e2 : ∑ j ∈ range (k + 1), B n (1 - 0) j = 0 := by
    refine sum_eq_zero fun j hj => ?_
    have : j < k + 1 := by simpa using hj
    simp [B, show n - j ≠ 0 by omega]
  have e3 : ∑ j ∈ range (k + 1), B n (1 - (1 - p)) j = ∑ j ∈ range (k + 1), B n p j := by
    simp
  rw [e1, e2, e3, sub_zero] at ftc
  have e4 : betaFn (n - k) (k + 1) * ((n - k) * n.choose k) = 1 := by
    have a1 : Real.Gamma (k + 1) = k.factorial := Real.Gamma_nat_eq_factorial k
    have a2 : Real.Gamma ((n:ℝ) - k + (k + 1)) = n.factorial := by
      rw [show (n:ℝ) - k + (k + 1) = n + 1 by ring]; exact Real.Gamma_nat_eq_factorial n
    have a3 : ((n:ℝ) - k) * Real.Gamma ((n:ℝ) - k) = (n - k).factorial := by
      have h0 : (n:ℝ) - k ≠ 0 := by
        rw [sub_ne_zero]; exact_mod_cast h.ne'
      rw [← Real.Gamma_add_one h0, ← Nat.cast_sub h.le]
      exact Real.Gamma_nat_eq_factorial _
    have a4 : (n.choose k * k.factorial * (n - k).factorial : ℝ) = n.factorial := by
      exact_mod_cast Nat.choose_mul_factorial_mul_factorial h.le
    have a5 : (n.factorial : ℝ) ≠ 0 := by exact_mod_cast n.factorial_ne_zero
    unfold betaFn
    rw [a1, a2, div_mul_eq_mul_div, div_eq_one_iff_eq a5, ← a4]
    linear_combination (n.choose k * k.factorial : ℝ) * a3
  have hk : (k:ℝ) < n := by exact_mod_cast h
  have e5 : betaFn ((n:ℝ) - k) (k + 1) ≠ 0 := (betaFn_pos (by linarith) (by positivity)).ne'
  rw [eq_div_iff e5, ← ftc]
  linear_combination (betaInt (n - k) (k + 1) 0 (1 - p)) * e4

theorem validate_ok (n : ℕ) {p : ℝ} (h0 : 0 ≤ p) (h1 : p ≤ 1) :
    validateNp n (fin p) = .ok ((n : ℤ), fin p) := by
  simp [validateNp, common.validateP_ok h0 h1]

theorem validate_bad {n : ℤ} {p : ℝ} (h : n < 0 ∨ p < 0 ∨ 1 < p) :
    validateNp n (fin p) = .error .valueError := by
  by_cases hp : p < 0 ∨ 1 < p
  · simp [validateNp, common.validateP_bad hp]
  · have hn : n < 0 := h.resolve_right hp
    push Not at hp
    simp [validateNp, common.validateP_ok hp.1 hp.2, hn]

theorem pmf_nat {n k : ℕ} (hk : k ≤ n) {p : ℝ} (h0 : 0 ≤ p) (h1 : p ≤ 1) :
    pmf k n (fin p) = .ok (fin (B n p k)) := by
  have e : ((n:ℤ) - (k:ℤ) : ℤ) = ((n - k : ℕ) : ℤ) := by omega
  simp only [pmf, validate_ok n h0 h1, ok_bind, mp.binomial_nat, ofInt_def, e, Int.cast_natCast,
    mp.power_nat h0, one_def, fin_sub, mp.power_nat (sub_nonneg.2 h1), fin_mul, pure_eq_ok, B]

theorem pmf_neg {n : ℕ} {k : ℤ} (hk : k < 0) {p : ℝ} (h0 : 0 < p) (h1 : p ≤ 1) :
    pmf k n (fin p) = .ok (fin 0) := by
  have e : ((n:ℤ) - k : ℤ) = (((n:ℤ) - k).toNat : ℤ) := by omega
  simp only [pmf, validate_ok n h0.le h1, ok_bind, mp.binomial_neg n hk, ofInt_def,
    mp.power_pos h0, one_def, fin_sub]
  rw [e, Int.cast_natCast, mp.power_nat (sub_nonneg.2 h1)]
  simp

theorem pmf_big {n k : ℕ} (hk : n < k) {p : ℝ} (h0 : 0 ≤ p) (h1 : p < 1) :
    pmf k n (fin p) = .ok (fin 0) := by
  simp only [pmf, validate_ok n h0 h1.le, ok_bind, mp.binomial_nat, ofInt_def, Int.cast_natCast,
    mp.power_nat h0, one_def, fin_sub, mp.power_pos (sub_pos.2 h1), fin_mul, pure_eq_ok,
    Nat.choose_eq_zero_of_lt hk]
  simp

end Mpsci.binomial
