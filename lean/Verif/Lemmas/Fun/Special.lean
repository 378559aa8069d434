import Verif.Lemmas.BesselR
import Verif.Lemmas.BesselK
import Verif.Lemmas.Fun.Debye
import Verif.Model.Fun.Special
import Verif.Spec.SpecialFun
import Mathlib.RingTheory.Polynomial.Hermite.Gaussian

namespace Mpsci

open Classical Num Filter Topology Set MeasureTheory

/-! ### Hermite -/

theorem derivative_hermite (n : ℕ) : Polynomial.derivative (Polynomial.hermite (n + 1)) = ((n:ℤ) + 1 : Polynomial ℤ) * Polynomial.hermite n := by
  induction n with
  | zero => simp
  | succ n ih =>
    have h : Polynomial.derivative (((n:ℤ) + 1 : Polynomial ℤ)) = 0 := by simp
    rw [Polynomial.hermite_succ (n + 1), Polynomial.derivative_sub, Polynomial.derivative_mul, Polynomial.derivative_X, ih,
      Polynomial.derivative_mul, h, Polynomial.hermite_succ n]
    push_cast
    ring

theorem hermite_rec (n : ℕ) (x : ℝ) : Polynomial.aeval x (Polynomial.hermite (n + 2)) =
    x * Polynomial.aeval x (Polynomial.hermite (n + 1)) - (n + 1) * Polynomial.aeval x (Polynomial.hermite n) := by
  rw [Polynomial.hermite_succ (n + 1), derivative_hermite]
  simp

theorem hermiteH_eq (x : ℝ) : ∀ n : ℕ, hermiteH n (x / √2) = √2 ^ n * Polynomial.aeval x (Polynomial.hermite n)
  | 0 => by simp [hermiteH]
  | 1 => by
    have h : √2 * √2 = 2 := Real.mul_self_sqrt zero_le_two
    have h0 : √2 ≠ 0 := by positivity
    simp only [hermiteH, Polynomial.hermite_one, Polynomial.aeval_X, pow_one]
    rw [mul_div_assoc', div_eq_iff h0]; linear_combination -x * h
  | n + 2 => by
    have h : √2 * √2 = 2 := Real.mul_self_sqrt zero_le_two
    have h0 : √2 ≠ 0 := by positivity
    rw [hermiteH, hermiteH_eq x (n + 1), hermiteH_eq x n, hermite_rec]
    generalize Polynomial.aeval x (Polynomial.hermite (n + 1)) = A
    generalize Polynomial.aeval x (Polynomial.hermite n) = B
    have e : 2 * (x / √2) = √2 * x := by rw [mul_div_assoc', div_eq_iff h0]; linear_combination -x * h
    rw [e, pow_succ, pow_succ]
    linear_combination (n + 1) * √2 ^ n * B * h

theorem fun_.hermiteE_eq (n : ℕ) (x : ℝ) : fun_.hermiteE (fin n) (fin x) = .ok (fin (Polynomial.aeval x (Polynomial.hermite n))) := by
  have h0 : 0 < √2 := by positivity
  have e : (2:ℝ) ^ (-(n:ℝ) / 2) * √2 ^ n = 1 := by
    rw [Real.sqrt_eq_rpow, ← Real.rpow_natCast, ← Real.rpow_mul zero_le_two, ← Real.rpow_add two_pos]
    rw [show -(n:ℝ) / 2 + 1 / 2 * n = 0 by ring, Real.rpow_zero]
  have hp := mp.power_pos two_pos (-(n:ℝ) / 2)
  have hh : mp.hermite (fin n) (fin (x / √2)) = .ok (fin (hermiteH n (x / √2))) := by
    simp [mp.hermite]
  simp only [fun_.hermiteE, ofNat_def, neg_fin, fin_div _ (two_ne_zero (α := ℝ)), hp, mp.sqrt_nonneg zero_le_two, fin_div _ h0.ne', hh,
    hermiteH_eq, ok_bind, pure_eq_ok, fin_mul, Nat.cast_ofNat]
  rw [← mul_assoc, e, one_mul]

/-! ### Spherical Bessel functions -/

namespace fun_

theorem add_half (n : ℝ) : (fin n + fin (1 / 2)) = fin (n + 1 / 2) := rfl

variable {z : ℝ}

theorem sphericalBesselj_eq (n : ℝ) (hz : 0 < z) : sphericalBesselj (fin n) (fin z) = .ok (fin (besselJR (n + 1 / 2) z * √(Real.pi / (2 * z)))) := by
  simp only [sphericalBesselj, fin_add, mp.besseljR_pos _ hz, mp.pi_def, ofNat_def, fin_mul, Nat.cast_ofNat,
    fin_div _ (show 2 * z ≠ 0 by positivity), mp.sqrt_nonneg (show 0 ≤ Real.pi / (2 * z) by have := Real.pi_pos; positivity), ok_bind, pure_eq_ok]
theorem sphericalBesseli_eq (n : ℝ) (hz : 0 < z) : sphericalBesseli (fin n) (fin z) = .ok (fin (besselIR (n + 1 / 2) z * √(Real.pi / (2 * z)))) := by
  simp only [sphericalBesseli, fin_add, mp.besseliR_pos _ hz, mp.pi_def, ofNat_def, fin_mul, Nat.cast_ofNat,
    fin_div _ (show 2 * z ≠ 0 by positivity), mp.sqrt_nonneg (show 0 ≤ Real.pi / (2 * z) by have := Real.pi_pos; positivity), ok_bind, pure_eq_ok]
theorem sphericalBesselk_eq (n : ℝ) (hz : 0 < z) : sphericalBesselk (fin n) (fin z) = .ok (fin (besselKR (n + 1 / 2) z * √(Real.pi / (2 * z)))) := by
  simp only [sphericalBesselk, fin_add, mp.besselkR_pos _ hz, mp.pi_def, ofNat_def, fin_mul, Nat.cast_ofNat,
    fin_div _ (show 2 * z ≠ 0 by positivity), mp.sqrt_nonneg (show 0 ≤ Real.pi / (2 * z) by have := Real.pi_pos; positivity), ok_bind, pure_eq_ok]
theorem half_ne_int (n m : ℤ) : (n:ℝ) + 1 / 2 ≠ m := by
  intro h
  have : (2 * n + 1 : ℤ) = 2 * m := by
    have : (2 * (n:ℝ) + 1) = 2 * m := by linarith
    exact_mod_cast this
  omega
theorem sphericalBessely_eq (n : ℤ) (hz : 0 < z) : sphericalBessely (fin n) (fin z) = .ok (fin (besselYR (n + 1 / 2) z * √(Real.pi / (2 * z)))) := by
  simp only [sphericalBessely, fin_add, mp.besselyR_pos hz (half_ne_int n), mp.pi_def, ofNat_def, fin_mul, Nat.cast_ofNat,
    fin_div _ (show 2 * z ≠ 0 by positivity), mp.sqrt_nonneg (show 0 ≤ Real.pi / (2 * z) by have := Real.pi_pos; positivity), ok_bind, pure_eq_ok]

theorem besselYR_half : besselYR (1 / 2) z = -besselJR (-1 / 2) z := by
  rw [besselYR, show (1 / 2 : ℝ) * Real.pi = Real.pi / 2 by ring, Real.cos_pi_div_two, Real.sin_pi_div_two, neg_div]; ring
theorem besselYR_neg_half : besselYR (-1 / 2) z = besselJR (1 / 2) z := by
  rw [besselYR, show (-1 / 2 : ℝ) * Real.pi = -(Real.pi / 2) by ring, Real.cos_neg, Real.sin_neg, Real.cos_pi_div_two, Real.sin_pi_div_two, neg_div, neg_neg]; ring
theorem sin_half_ne (n : ℤ) : Real.sin (((n:ℝ) + 1 / 2) * Real.pi) ≠ 0 := by
  rw [Real.sin_ne_zero_iff]
  intro m h
  have := mul_right_cancel₀ Real.pi_pos.ne' h
  exact half_ne_int n m this.symm

/-! ### Wright's function -/

theorem wrightTerm_eq (k : ℕ) (z ρ β : ℝ) (hz : z ≠ 0) : wrightTerm k (fin z) (fin ρ) (fin β) =
    .ok (fin (if ∃ m : ℕ, ρ * k + β = -m then 0 else z ^ k / (k.factorial * Real.Gamma (ρ * k + β)))) := by
  have hp : mp.power (fin z) (fin (k:ℝ)) = .ok (fin (z ^ k)) := by
    rcases lt_or_gt_of_ne hz with h | h
    · simp [mp.power, h.not_gt, h.ne]
    · rw [mp.power_pos h, Real.rpow_natCast]
  rw [wrightTerm, hp]
  simp only [ok_bind, fin_mul, fin_add, mul_comm (k:ℝ) ρ, mp.gammaReal, mp.factorial_nat]
  by_cases h : ∃ m : ℕ, ρ * k + β = -m
  · simp only [if_pos h]; rfl
  · simp only [if_neg h]
    have h2 : Real.Gamma (ρ * k + β) * k.factorial ≠ 0 :=
      mul_ne_zero (Real.Gamma_ne_zero fun m hm => h ⟨m, hm⟩) (by exact_mod_cast k.factorial_ne_zero)
    show fin (z ^ k) /. (fin _ * fin _) = _
    rw [fin_mul, fin_div _ h2, mul_comm (Real.Gamma _)]

theorem wright_term_eq (k : ℕ) (z ρ β : ℝ) : (if ∃ m : ℕ, ρ * k + β = -m then 0 else z ^ k / (k.factorial * Real.Gamma (ρ * k + β))) =
    z ^ k / (k.factorial * Real.Gamma (ρ * k + β)) := by
  split_ifs with h
  · rw [Real.Gamma_eq_zero_iff _ |>.2 h]; simp
  · rfl

theorem debye_int_bound (n : ℕ) {t R : ℝ} (ht : |t| ≤ R) : |t ^ (n + 1) / (Real.exp t - 1)| ≤ R ^ n * (1 + R) := by
  have h0 : |t / (Real.exp t - 1)| ≤ 1 + |t| := by
    rcases lt_trichotomy t 0 with h | h | h
    · have h1 : Real.exp t - 1 < 0 := by linarith [Real.exp_lt_one_iff.2 h]
      rw [abs_of_nonneg (div_nonneg_of_nonpos h.le h1.le), abs_of_neg h, div_le_iff_of_neg h1]
      have h2 : Real.exp t * (1 - t) ≤ 1 := by
        have := Real.add_one_le_exp (-t)
        calc Real.exp t * (1 - t) ≤ Real.exp t * Real.exp (-t) := mul_le_mul_of_nonneg_left (by linarith) (Real.exp_pos t).le
          _ = 1 := by rw [← Real.exp_add]; simp
      linarith
    · rw [h]; simp
    · have h1 : t ≤ Real.exp t - 1 := by linarith [Real.add_one_le_exp t]
      rw [abs_of_pos (div_pos h (h.trans_le h1)), abs_of_pos h]
      have : t / (Real.exp t - 1) ≤ 1 := (div_le_one (h.trans_le h1)).2 h1
      linarith
  rw [pow_succ, mul_div_assoc, abs_mul, abs_pow]
  have hR : 0 ≤ R := (abs_nonneg t).trans ht
  exact mul_le_mul (pow_le_pow_left₀ (abs_nonneg t) ht n) (h0.trans (by linarith)) (abs_nonneg _) (by positivity)

end fun_
end Mpsci
