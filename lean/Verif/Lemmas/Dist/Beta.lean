import Verif.Model.Dist.Beta
import Verif.Lemmas.BetaDist
import Verif.Lemmas.Shape
import Verif.Lemmas.Common
import Verif.Lemmas.Fun.Powm1

/-! Evaluation of the model of `beta`. -/

namespace Mpsci.fun_

open Num

theorem logbeta_pos {a b : ℝ} (ha : 0 < a) (hb : 0 < b) : logbeta (fin a) (fin b) = .ok (fin (Real.log (betaFn a b))) := by
  have hab : 0 < a + b := add_pos ha hb
  have e : mp.fsum [fin a, fin b] = fin (a + b) := by simp [mp.fsum]
  rw [logbeta, e, mp.loggamma_pos ha, mp.loggamma_pos hb, mp.loggamma_pos hab]
  simp only [ok_bind, fin_add, fin_sub, pure_eq_ok]
  have h1 := (Real.Gamma_pos_of_pos ha).ne'
  have h2 := (Real.Gamma_pos_of_pos hb).ne'
  have h3 := (Real.Gamma_pos_of_pos hab).ne'
  rw [betaFn, Real.log_div (mul_ne_zero h1 h2) h3, Real.log_mul h1 h2]

end Mpsci.fun_

namespace Mpsci.beta

open Classical Num Spec common Set betaD

variable {a b : ℝ}

theorem validate_ok (ha : 0 < a) (hb : 0 < b) : validateAB (fin a) (fin b) = .ok (fin a, fin b) := by
  simp [validateAB, ha.not_ge, hb.not_ge]
theorem validate_bad (h : ¬ (0 < a ∧ 0 < b)) : validateAB (fin a) (fin b) = .error .valueError := by
  have := not_and_pos h
  simp [validateAB, this]

/-- Where the density is infinite. -/
def E (a b : ℝ) : Set ℝ := {x | x = 0 ∧ a < 1 ∨ x = 1 ∧ b < 1}

theorem E_finite : (E a b).Finite := by
  refine Set.Finite.subset (toFinite {0, 1}) ?_
  rintro x (⟨h, -⟩ | ⟨h, -⟩) <;> simp [h]

theorem cdf_eval (ha : 0 < a) (hb : 0 < b) (x : ℝ) : cdf (fin x) (fin a) (fin b) = .ok (fin (F a b x)) := by
  by_cases h0 : x < 0
  · simp [cdf, validate_ok ha hb, h0, F_le h0.le]
  by_cases h1 : 1 < x
  · simp [cdf, validate_ok ha hb, h0, h1, F_ge h1.le]
  push Not at h0 h1
  simp [cdf, validate_ok ha hb, h0.not_gt, h1.not_gt, F_mid ha hb h0 h1, P, mp.betaincReg_fin ha hb le_rfl zero_le_one h0 h1]

theorem sf_eval (ha : 0 < a) (hb : 0 < b) (x : ℝ) : sf (fin x) (fin a) (fin b) = .ok (fin (1 - F a b x)) := by
  by_cases h0 : x < 0
  · simp [sf, validate_ok ha hb, h0, F_le h0.le]
  by_cases h1 : 1 < x
  · simp [sf, validate_ok ha hb, h0, h1, F_ge h1.le]
  push Not at h0 h1
  simp [sf, validate_ok ha hb, h0.not_gt, h1.not_gt, F_mid ha hb h0 h1, mp.betaincReg_fin ha hb h0 h1 zero_le_one le_rfl, upper ha hb h0 h1]

theorem pdf_eval (ha : 0 < a) (hb : 0 < b) {x : ℝ} (hx : x ∉ E a b) : pdf (fin x) (fin a) (fin b) = .ok (fin (f a b x)) := by
  by_cases h : x < 0 ∨ 1 < x
  · rw [f_out (by rintro ⟨h0, h1⟩; rcases h with h | h <;> linarith)]
    simp [pdf, validate_ok ha hb, h]
  · have hd := h
    push Not at h
    have h1 : ¬ (x = 0 ∧ a < 1) := fun h => hx (Or.inl h)
    have h2 : ¬ (x = 1 ∧ b < 1) := fun h => hx (Or.inr h)
    have p1 : mp.power (fin x) (fin (a - 1)) = .ok (fin (x ^ (a - 1))) := power_of_nonneg h.1 fun e => by
      by_contra hh; exact h1 ⟨e, by linarith⟩
    have p2 : mp.power (fin (1 - x)) (fin (b - 1)) = .ok (fin ((1 - x) ^ (b - 1))) := power_of_nonneg (by linarith [h.2]) fun e => by
      by_contra hh; exact h2 ⟨by linarith, by linarith⟩
    simp only [pdf, validate_ok ha hb, ok_bind, zero_def, one_def, fin_lt, gt_iff, fin_eq, hd, h1, h2, if_false, fin_sub, p1, p2, fin_mul,
      mp.beta_fin ha hb, fin_div _ (betaFn_pos ha hb).ne', f_mid h.1 h.2, g, w]

theorem f_zero (ha : 1 < a) : f a b 0 = 0 := by
  rw [f_mid le_rfl zero_le_one, g, w, Real.zero_rpow (by linarith)]; simp
theorem f_one (hb : 1 < b) : f a b 1 = 0 := by
  rw [f_mid zero_le_one le_rfl, g, w, sub_self, Real.zero_rpow (by linarith)]; simp

theorem logpdf_mid (ha : 0 < a) (hb : 0 < b) {x : ℝ} (h0 : 0 < x) (h1 : x < 1) :
    logpdf (fin x) (fin a) (fin b) = .ok (fin ((a - 1) * Real.log x + (b - 1) * Real.log (1 - x) - Real.log (betaFn a b))) := by
  have c : ¬ (x < 0 ∨ 1 < x) := by push Not; exact ⟨h0.le, h1.le⟩
  simp only [logpdf, validate_ok ha hb, ok_bind, zero_def, one_def, fin_lt, gt_iff, c, if_false, fin_sub, neg_fin, fun_.xlogy_eval h0,
    fun_.xlog1py_eval (show -1 < -x by linarith), fun_.logbeta_pos ha hb, fin_add, pure_eq_ok, ← sub_eq_add_neg]

theorem log_g (ha : 0 < a) (hb : 0 < b) {x : ℝ} (h0 : 0 < x) (h1 : x < 1) :
    Real.log (g a b x) = (a - 1) * Real.log x + (b - 1) * Real.log (1 - x) - Real.log (betaFn a b) := by
  have h2 : 0 < 1 - x := by linarith
  rw [g, Real.log_div (w_pos h0 h1).ne' (betaFn_pos ha hb).ne', w, Real.log_mul (Real.rpow_pos_of_pos h0 _).ne'
    (Real.rpow_pos_of_pos h2 _).ne', Real.log_rpow h0, Real.log_rpow h2]

theorem logpdf_zero (ha : 0 < a) (hb : 0 < b) : logpdf (fin 0) (fin a) (fin b) =
    .ok (if a < 1 then pinf else if a = 1 then fin (-Real.log (betaFn a b)) else ninf) := by
  have h2 : fun_.xlog1py (fin (b - 1)) (fin (-0)) = .ok (fin 0) := by
    rw [fun_.xlog1py_eval (by norm_num)]; simp
  have c : ¬ ((0:ℝ) < 0 ∨ (1:ℝ) < 0) := by norm_num
  have h1 : fun_.xlogy (fin (a - 1)) (fin 0) = .ok (if a < 1 then pinf else if a = 1 then fin 0 else ninf) := by
    rcases lt_trichotomy a 1 with h | h | h
    · have : a - 1 ≠ 0 := by linarith
      simp [fun_.xlogy, h, this, mp.log_zero, fin_mul_ninf, scaleInf_neg (show a - 1 < 0 by linarith)]
    · simp [fun_.xlogy, h]
    · have : a - 1 ≠ 0 := by linarith
      simp [fun_.xlogy, h.not_gt, h.ne', this, mp.log_zero, fin_mul_ninf, scaleInf_pos (show 0 < a - 1 by linarith)]
  simp only [logpdf, validate_ok ha hb, ok_bind, zero_def, one_def, fin_lt, gt_iff, c, if_false, fin_sub, neg_fin, h1, h2,
    fun_.logbeta_pos ha hb, pure_eq_ok]
  split_ifs <;> simp

theorem logpdf_one (ha : 0 < a) (hb : 0 < b) : logpdf (fin 1) (fin a) (fin b) =
    .ok (if b < 1 then pinf else if b = 1 then fin (-Real.log (betaFn a b)) else ninf) := by
  have h2 : fun_.xlogy (fin (a - 1)) (fin 1) = .ok (fin 0) := by
    rw [fun_.xlogy_eval (by norm_num)]; simp
  have c : ¬ ((1:ℝ) < 0 ∨ (1:ℝ) < 1) := by norm_num
  have hl : mp.log1p (fin (-1)) = .ok ninf := by
    simp [mp.log1p]
  have h1 : fun_.xlog1py (fin (b - 1)) (fin (-1)) = .ok (if b < 1 then pinf else if b = 1 then fin 0 else ninf) := by
    rcases lt_trichotomy b 1 with h | h | h
    · have : b - 1 ≠ 0 := by linarith
      simp [fun_.xlog1py, h, this, hl, fin_mul_ninf, scaleInf_neg (show b - 1 < 0 by linarith)]
    · simp [fun_.xlog1py, h]
    · have : b - 1 ≠ 0 := by linarith
      simp [fun_.xlog1py, h.not_gt, h.ne', this, hl, fin_mul_ninf, scaleInf_pos (show 0 < b - 1 by linarith)]
  simp only [logpdf, validate_ok ha hb, ok_bind, zero_def, one_def, fin_lt, gt_iff, c, if_false, fin_sub, neg_fin, h1, h2,
    fun_.logbeta_pos ha hb, pure_eq_ok]
  split_ifs <;> simp

theorem mode_eval (ha : 0 < a) (hb : 0 < b) : mode (fin a) (fin b) =
    .ok (fin (if a < 1 then 0 else if a = 1 then (if b < 1 then 1 else 0) else if b ≤ 1 then 1 else (a - 1) / (a + b - 2))) := by
  by_cases h1 : a < 1
  · simp [mode, validate_ok ha hb, h1]
  by_cases h2 : a = 1
  · by_cases h3 : b < 1 <;> simp [mode, validate_ok (h2 ▸ ha) hb, h2, h3]
  by_cases h3 : b ≤ 1
  · simp [mode, validate_ok ha hb, h1, h2, h3]
  · have : a + b - 2 ≠ 0 := by
      push Not at h1 h3; have := h1.lt_of_ne' h2; linarith
    simp [mode, validate_ok ha hb, h1, h2, h3, fin_div _ this]

theorem mean_eval (ha : 0 < a) (hb : 0 < b) : mean (fin a) (fin b) = .ok (fin (a / (a + b))) := by
  simp [mean, validate_ok ha hb, fin_div _ (add_pos ha hb).ne']

theorem var_eval (ha : 0 < a) (hb : 0 < b) : var (fin a) (fin b) = .ok (fin (a * b / ((a + b) ^ 2 * (a + b + 1)))) := by
  have : (a + b) ^ 2 * (a + b + 1) ≠ 0 := by positivity
  simp [var, validate_ok ha hb, fin_div _ this]

theorem skewness_eval (ha : 0 < a) (hb : 0 < b) : skewness (fin a) (fin b) =
    .ok (fin (2 * (b - a) * √(a + b + 1) / ((a + b + 2) * √(a * b)))) := by
  have h : (a + b + 2) * √(a * b) ≠ 0 := by positivity
  simp only [skewness, validate_ok ha hb, ok_bind, fin_add, fin_sub, one_def, ofNat_def, fin_mul, mp.sqrt_nonneg (show 0 ≤ a + b + 1 by positivity),
    mp.sqrt_nonneg (show 0 ≤ a * b by positivity), fin_div _ h]

theorem kurtosis_eval (ha : 0 < a) (hb : 0 < b) : kurtosis (fin a) (fin b) =
    .ok (fin (6 * ((a - b) ^ 2 * (a + b + 1) - a * b * (a + b + 2)) / (a * b * (a + b + 2) * (a + b + 3)))) := by
  have h : a * b * (a + b + 2) * (a + b + 3) ≠ 0 := by positivity
  simp only [kurtosis, validate_ok ha hb, ok_bind, fin_add, fin_sub, one_def, ofNat_def, fin_mul, mp.ipow_fin, fin_div _ h]

theorem betaFn_succ (ha : 0 < a) (hb : 0 < b) : betaFn (a + 1) b = a / (a + b) * betaFn a b := by
  have h3 := (Real.Gamma_pos_of_pos (add_pos ha hb)).ne'
  have hab := (add_pos ha hb).ne'
  rw [betaFn, betaFn, show a + 1 + b = a + b + 1 by ring, Real.Gamma_add_one ha.ne', Real.Gamma_add_one hab]
  field_simp

/-- The ratio that gives the `n`th moment. -/
noncomputable def m (a b : ℝ) (n : ℕ) : ℝ := betaFn (a + n) b / betaFn a b

theorem m_succ (ha : 0 < a) (hb : 0 < b) (n : ℕ) : m a b (n + 1) = m a b n * ((a + n) / (a + b + n)) := by
  have h := betaFn_succ (a := a + n) (b := b) (by positivity) hb
  rw [m, m, Nat.cast_add, Nat.cast_one, ← add_assoc, h, show a + n + b = a + b + n by ring]; ring

theorem momentLoop_eval (ha : 0 < a) (hb : 0 < b) (n : ℕ) : momentLoop (fin a) (fin b) n = .ok (fin (m a b n)) := by
  induction n with
  | zero => simp [momentLoop, m, div_self (betaFn_pos ha hb).ne']
  | succ n ih =>
    have : a + b + n ≠ 0 := by positivity
    simp only [momentLoop, ih, ok_bind, fin_add, fin_div _ this, fin_mul, pure_eq_ok, m_succ ha hb]

theorem E_pow (ha : 0 < a) (hb : 0 < b) (n : ℕ) : Int01 (fun p => Q a b p ^ n) (m a b n) := by
  have h := E_rpow ha hb (s := n) (t := 0) (by positivity) (by linarith)
  rw [add_zero] at h
  exact Int01.congr h fun p _ _ => by simp [Real.rpow_natCast]

theorem m_zero (ha : 0 < a) (hb : 0 < b) : m a b 0 = 1 := by simp [m, div_self (betaFn_pos ha hb).ne']
theorem m_one (ha : 0 < a) (hb : 0 < b) : m a b 1 = a / (a + b) := by
  have := m_succ ha hb 0; simpa [m_zero ha hb] using this
theorem m_two (ha : 0 < a) (hb : 0 < b) : m a b 2 = a / (a + b) * ((a + 1) / (a + b + 1)) := by
  have := m_succ ha hb 1; simpa [m_one ha hb] using this
theorem m_three (ha : 0 < a) (hb : 0 < b) : m a b 3 = a / (a + b) * ((a + 1) / (a + b + 1)) * ((a + 2) / (a + b + 2)) := by
  have := m_succ ha hb 2; simpa [m_two ha hb] using this
theorem m_four (ha : 0 < a) (hb : 0 < b) : m a b 4 =
    a / (a + b) * ((a + 1) / (a + b + 1)) * ((a + 2) / (a + b + 2)) * ((a + 3) / (a + b + 3)) := by
  have := m_succ ha hb 3; simpa [m_three ha hb] using this

theorem entropy_eval (ha : 0 < a) (hb : 0 < b) : entropy (fin a) (fin b) =
    .ok (fin (Real.log (betaFn a b) - (a - 1) * psi a - (b - 1) * psi b + (a + b - 2) * psi (a + b))) := by
  simp only [entropy, validate_ok ha hb, ok_bind, fun_.logbeta_pos ha hb, fin_add, fin_sub, one_def, ofNat_def, mp.psi0_pos ha, mp.psi0_pos hb,
    mp.psi0_pos (add_pos ha hb), fin_mul, pure_eq_ok]

end Mpsci.beta
