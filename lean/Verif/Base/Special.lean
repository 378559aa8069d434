import Verif.Base.Mp
import Mathlib.Probability.Distributions.Beta

/-!
# Special functions of mpmath, by their integral definitions
-/

namespace Mpsci

open Classical Num MeasureTheory

/-- The Euler beta function. -/
noncomputable def betaFn (a b : ℝ) : ℝ := Real.Gamma a * Real.Gamma b / Real.Gamma (a + b)

/-- The incomplete beta integral from `x` to `y`. -/
noncomputable def betaInt (a b x y : ℝ) : ℝ := ∫ t in x..y, t ^ (a - 1) * (1 - t) ^ (b - 1)

namespace mp

/-- `mp.beta(a, b)` for positive reals. -/
noncomputable def beta : Num → Num → M Num
  | fin a, fin b => if 0 < a ∧ 0 < b then .ok (fin (betaFn a b)) else .error .notModelled
  | _, _ => .error .notModelled

/-- `mp.betainc(a, b, x1, x2)` for positive `a`, `b` and `0 <= x1, x2 <= 1`. -/
noncomputable def betainc : Num → Num → Num → Num → M Num
  | fin a, fin b, fin x, fin y =>
    if 0 < a ∧ 0 < b ∧ 0 ≤ x ∧ x ≤ 1 ∧ 0 ≤ y ∧ y ≤ 1 then .ok (fin (betaInt a b x y))
    else .error .notModelled
  | _, _, _, _ => .error .notModelled

/-- `mp.betainc(a, b, x1, x2, regularized=True)` for positive `a`, `b` and `0 <= x1, x2 <= 1`, or for any reals `x1`, `x2`
when `a`, `b` are integers, so that the integrand is a polynomial. -/
noncomputable def betaincReg : Num → Num → Num → Num → M Num
  | fin a, fin b, fin x, fin y =>
    if 0 < a ∧ 0 < b ∧ (0 ≤ x ∧ x ≤ 1 ∧ 0 ≤ y ∧ y ≤ 1 ∨ ∃ m n : ℕ, a = m ∧ b = n) then
      .ok (fin (betaInt a b x y / betaFn a b))
    else .error .notModelled
  | _, _, _, _ => .error .notModelled

theorem beta_fin {a b : ℝ} (ha : 0 < a) (hb : 0 < b) : beta (fin a) (fin b) = .ok (fin (betaFn a b)) := by
  simp [beta, ha, hb]
theorem betainc_fin {a b x y : ℝ} (ha : 0 < a) (hb : 0 < b) (hx : 0 ≤ x) (hx' : x ≤ 1) (hy : 0 ≤ y)
    (hy' : y ≤ 1) : betainc (fin a) (fin b) (fin x) (fin y) = .ok (fin (betaInt a b x y)) := by
  simp [betainc, *]
theorem betaincReg_fin {a b x y : ℝ} (ha : 0 < a) (hb : 0 < b) (hx : 0 ≤ x) (hx' : x ≤ 1)
    (hy : 0 ≤ y) (hy' : y ≤ 1) :
    betaincReg (fin a) (fin b) (fin x) (fin y) = .ok (fin (betaInt a b x y / betaFn a b)) := by
  simp [betaincReg, *]

end mp

section

variable {a b : ℝ}

theorem betaFn_pos (ha : 0 < a) (hb : 0 < b) : 0 < betaFn a b :=
  ProbabilityTheory.beta_pos ha hb

theorem betaIntegrand_nonneg {t : ℝ} (h0 : 0 ≤ t) (h1 : t ≤ 1) :
    0 ≤ t ^ (a - 1) * (1 - t) ^ (b - 1) :=
  mul_nonneg (Real.rpow_nonneg h0 _) (Real.rpow_nonneg (by linarith) _)

theorem betaIntegrand_cast {t : ℝ} (h0 : 0 ≤ t) (h1 : t ≤ 1) :
    (t : ℂ) ^ ((a : ℂ) - 1) * (1 - (t : ℂ)) ^ ((b : ℂ) - 1) =
      ((t ^ (a - 1) * (1 - t) ^ (b - 1) : ℝ) : ℂ) := by
  rw [Complex.ofReal_mul, Complex.ofReal_cpow h0, Complex.ofReal_cpow (by linarith)]
  push_cast
  rfl

theorem betaIntegrable (ha : 0 < a) (hb : 0 < b) :
    IntervalIntegrable (fun t : ℝ => t ^ (a - 1) * (1 - t) ^ (b - 1)) volume 0 1 := by
  have h := Complex.betaIntegral_convergent (u := a) (v := b) (by simpa using ha) (by simpa using hb)
  rw [intervalIntegrable_iff_integrableOn_Ioc_of_le zero_le_one] at h ⊢
  refine IntegrableOn.congr_fun (f := fun t : ℝ => RCLike.re
    ((t : ℂ) ^ ((a : ℂ) - 1) * (1 - (t : ℂ)) ^ ((b : ℂ) - 1))) h.re ?_ measurableSet_Ioc
  intro t ht
  simp only [betaIntegrand_cast ht.1.le ht.2]
  simp

theorem betaInt_full (ha : 0 < a) (hb : 0 < b) : betaInt a b 0 1 = betaFn a b := by
  have h : Complex.betaIntegral a b = ((betaInt a b 0 1 : ℝ) : ℂ) := by
    rw [Complex.betaIntegral, betaInt, ← intervalIntegral.integral_ofReal]
    refine intervalIntegral.integral_congr fun t ht => ?_
    rw [Set.uIcc_of_le zero_le_one] at ht
    exact betaIntegrand_cast ht.1 ht.2
  have h2 := ProbabilityTheory.beta_eq_betaIntegralReal a b ha hb
  rw [h, Complex.ofReal_re] at h2
  exact h2.symm

theorem betaInt_symm (x y : ℝ) : betaInt a b x y = betaInt b a (1 - y) (1 - x) := by
  unfold betaInt
  have := intervalIntegral.integral_comp_sub_left (a := x) (b := y)
    (fun t : ℝ => t ^ (b - 1) * (1 - t) ^ (a - 1)) 1
  rw [← this]
  congr 1
  funext t
  rw [sub_sub_cancel, mul_comm]

end

end Mpsci

namespace Mpsci

open Classical Num MeasureTheory

variable {a b : ℝ}

theorem betaIntegrable' (ha : 0 < a) (hb : 0 < b) {x y : ℝ} (hx : 0 ≤ x) (hx' : x ≤ 1) (hy : 0 ≤ y)
    (hy' : y ≤ 1) :
    IntervalIntegrable (fun t : ℝ => t ^ (a - 1) * (1 - t) ^ (b - 1)) volume x y := by
  refine (betaIntegrable ha hb).mono_set ?_
  rw [Set.uIcc_of_le zero_le_one]
  exact Set.uIcc_subset_Icc ⟨hx, hx'⟩ ⟨hy, hy'⟩

theorem betaInt_add (ha : 0 < a) (hb : 0 < b) {x y : ℝ} (hx : 0 ≤ x) (hx' : x ≤ 1) (hy : 0 ≤ y)
    (hy' : y ≤ 1) : betaInt a b 0 x + betaInt a b x y = betaInt a b 0 y :=
  intervalIntegral.integral_add_adjacent_intervals
    (betaIntegrable' ha hb le_rfl zero_le_one hx hx') (betaIntegrable' ha hb hx hx' hy hy')

theorem betaInt_nonneg {x y : ℝ} (hx : 0 ≤ x) (hxy : x ≤ y) (hy : y ≤ 1) : 0 ≤ betaInt a b x y :=
  intervalIntegral.integral_nonneg hxy fun _ ht =>
    betaIntegrand_nonneg (hx.trans ht.1) (ht.2.trans hy)

theorem betaInt_mono (ha : 0 < a) (hb : 0 < b) {x y : ℝ} (hx : 0 ≤ x) (hxy : x ≤ y) (hy : y ≤ 1) :
    betaInt a b 0 x ≤ betaInt a b 0 y := by
  rw [← betaInt_add ha hb hx (hxy.trans hy) (hx.trans hxy) hy]
  linarith [betaInt_nonneg (a := a) (b := b) hx hxy hy]

/-- `I_x(a, b) + I_{1-x}(b, a) = 1`. -/
theorem betaInt_compl (ha : 0 < a) (hb : 0 < b) {x : ℝ} (hx : 0 ≤ x) (hx' : x ≤ 1) :
    betaInt a b 0 x + betaInt b a 0 (1 - x) = betaFn a b := by
  rw [betaInt_symm (a := b) (b := a), sub_sub_cancel, sub_zero,
    betaInt_add ha hb hx hx' zero_le_one le_rfl, betaInt_full ha hb]

end Mpsci
