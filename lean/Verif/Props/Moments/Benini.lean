import Verif.Lemmas.BeniniInt

/-! Mean, variance and noncentral moments of `benini`. -/

namespace Mpsci.benini

open Classical Num Spec common Set MeasureTheory

variable {a b s : ℝ}

theorem hNeg1_eval (hb : 0 < b) (n : ℝ) : ∃ h, hNeg1 (fin ((a - n) / Real.sqrt (2 * b))) = .ok (fin h) ∧
    n * (h / Real.sqrt (2 * b)) = mom a b n - 1 ∧ 0 < h := by
  have h2 : Real.sqrt 2 ≠ 0 := by positivity
  have hsb := Real.sqrt_pos.2 hb
  refine ⟨Real.sqrt Real.pi / Real.sqrt 2 * Real.exp (((a - n) / Real.sqrt (2 * b) / Real.sqrt 2) ^ 2) *
    (1 - erfR ((a - n) / Real.sqrt (2 * b) / Real.sqrt 2)), ?_, ?_, ?_⟩
  · simp only [hNeg1, ofNat_def, mp.sqrt_nonneg zero_le_two, mp.pi_def, mp.sqrt_nonneg Real.pi_pos.le, ok_bind, fin_div _ h2, mp.ipow_fin,
      mp.exp_fin, mp.erfc_fin, fin_mul, pure_eq_ok]
  · have e1 : Real.sqrt (2 * b) = Real.sqrt 2 * Real.sqrt b := Real.sqrt_mul zero_le_two b
    have e2 : Real.sqrt (2 * b) * Real.sqrt 2 = 2 * Real.sqrt b := by
      rw [e1, mul_right_comm, Real.mul_self_sqrt zero_le_two]
    have e3 : ((a - n) / (2 * Real.sqrt b)) ^ 2 = (a - n) ^ 2 / (4 * b) := by
      rw [div_pow, mul_pow, Real.sq_sqrt hb.le]; norm_num
    rw [div_div, e2, e3, mom, add_sub_cancel_left]
    have e4 : Real.sqrt Real.pi / Real.sqrt 2 / Real.sqrt (2 * b) = Real.sqrt Real.pi / (2 * Real.sqrt b) := by
      rw [div_div, mul_comm (Real.sqrt 2), e2]
    rw [← e4]; ring
  · have := erfR_lt_one ((a - n) / Real.sqrt (2 * b) / Real.sqrt 2)
    have h3 : 0 < Real.sqrt Real.pi := Real.sqrt_pos.2 Real.pi_pos
    have : 0 < 1 - erfR ((a - n) / Real.sqrt (2 * b) / Real.sqrt 2) := by linarith
    positivity

theorem mean_eval (ha : 0 < a) (hb : 0 < b) (hs : 0 < s) : mean (fin a) (fin b) (fin s) = .ok (fin (s * mom a b 1)) := by
  obtain ⟨h, e1, e2, _⟩ := hNeg1_eval (a := a) hb 1
  have h2b : (0:ℝ) ≤ 2 * b := by positivity
  have hq : Real.sqrt (2 * b) ≠ 0 := by positivity
  simp only [mean, validate_ok ha hb hs, ok_bind, ofNat_def, one_def, fin_mul, mp.sqrt_nonneg h2b, fin_sub, fin_div _ hq, e1, fin_add, pure_eq_ok]
  congr 3; linarith

theorem var_eval (ha : 0 < a) (hb : 0 < b) (hs : 0 < s) :
    var (fin a) (fin b) (fin s) = .ok (fin (s ^ 2 * (mom a b 2 - mom a b 1 ^ 2))) := by
  obtain ⟨h, e1, e2, hp⟩ := hNeg1_eval (a := a) hb 2
  have h2b : (0:ℝ) ≤ 2 * b := by positivity
  have hq : Real.sqrt (2 * b) ≠ 0 := by positivity
  have e3 : 1 + 2 * h / Real.sqrt (2 * b) = mom a b 2 := by rw [mul_div_assoc]; linarith
  have h0 : 0 ≤ mom a b 2 := by rw [← e3]; positivity
  simp only [var, mean_eval ha hb hs, validate_ok ha hb hs, ok_bind, ofNat_def, one_def, fin_mul, mp.sqrt_nonneg h2b, fin_sub, fin_div _ hq, e1,
    fin_add, e3, mp.sqrt_nonneg h0, pure_eq_ok]
  congr 2
  linear_combination s ^ 2 * Real.sq_sqrt h0

theorem moment_eval (ha : 0 < a) (hb : 0 < b) (hs : 0 < s) (n : ℕ) :
    noncentralMoment n (fin a) (fin b) (fin s) = .ok (fin (s ^ n * mom a b n)) := by
  have hq : 2 * Real.sqrt b ≠ 0 := by positivity
  simp only [noncentralMoment, validate_ok ha hb hs, ok_bind, ofNat_def, one_def, fin_mul, mp.sqrt_nonneg hb.le, fin_sub, fin_div _ hq, fin_div _ hb.ne', mp.ipow_fin,
    mp.pi_def, mp.sqrt_nonneg Real.pi_pos.le, mp.exp_fin, mp.erfc_fin, mp.power_pos hs, fin_add, pure_eq_ok]
  simp only [Int.cast_natCast, Real.rpow_natCast]
  rw [mom, show 1 / 4 * (a - (n:ℝ)) ^ 2 / b = (a - (n:ℝ)) ^ 2 / (4 * b) by field_simp]
  congr 3; ring

/-- C37 -/
theorem isMean (ha : 0 < a) (hb : 0 < b) (hs : 0 < s) : IsMean ∅ (pdf · (fin a) (fin b) (fin s)) (mean (fin a) (fin b) (fin s)) :=
  ((hasMV ha hb).scale hs).isMean finite_empty (fun x _ => pdf_eval ha hb hs x) (mean_eval ha hb hs)

/-- C37 -/
theorem isVar (ha : 0 < a) (hb : 0 < b) (hs : 0 < s) : IsVar ∅ (pdf · (fin a) (fin b) (fin s)) (var (fin a) (fin b) (fin s)) :=
  ((hasMV ha hb).scale hs).isVar finite_empty (fun x _ => pdf_eval ha hb hs x) (var_eval ha hb hs)

/-- C50, C37: every moment of order `n >= 0` is the integral of `x^n pdf(x)` (all of them exist) -/
theorem isMoment (ha : 0 < a) (hb : 0 < b) (hs : 0 < s) (n : ℕ) :
    IsMoment ∅ (pdf · (fin a) (fin b) (fin s)) n (noncentralMoment n (fin a) (fin b) (fin s)) :=
  ⟨finite_empty, _, _, fun x _ => pdf_eval ha hb hs x, moment_eval ha hb hs n, moment_scale ha hb hs n⟩

/-- C37, C50: bad parameters are rejected -/
theorem moments_validate (h : ¬ (0 < a ∧ 0 < b ∧ 0 < s)) (n : ℤ) : mean (fin a) (fin b) (fin s) = .error .valueError ∧
    var (fin a) (fin b) (fin s) = .error .valueError ∧ noncentralMoment n (fin a) (fin b) (fin s) = .error .valueError := by
  refine ⟨?_, ?_, ?_⟩ <;> simp [mean, var, noncentralMoment, validate_bad h]

example : mean (fin 1) (fin 1) (fin 2) = .ok (fin (2 * (1 + Real.sqrt Real.pi / 2))) := by
  rw [mean_eval one_pos one_pos two_pos]; simp [mom]

example : noncentralMoment 0 (fin 1) (fin 1) (fin 2) = .ok (fin 1) := by
  have := moment_eval one_pos one_pos two_pos 0
  simpa [mom] using this

end Mpsci.benini
