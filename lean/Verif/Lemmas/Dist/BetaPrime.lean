import Verif.Model.Dist.BetaPrime
import Verif.Lemmas.Dist.Beta
import Verif.Lemmas.BetaPrimeDist
import Verif.Lemmas.Helpers
import Verif.Lemmas.NoMoment
import Verif.Lemmas.Search

/-! Evaluation of the model of `betaprime`. -/

namespace Mpsci.betaprime

open Classical Num Spec common Set bpD

variable {a b s : ℝ}

theorem validate_ok (ha : 0 < a) (hb : 0 < b) (hs : 0 < s) :
    validateParams (fin a) (fin b) (fin s) = .ok (fin a, fin b, fin s) := by
  simp [validateParams, ha.not_ge, hb.not_ge, hs.not_ge]
theorem validate_bad (h : ¬ (0 < a ∧ 0 < b ∧ 0 < s)) : validateParams (fin a) (fin b) (fin s) = .error .valueError := by
  by_cases h1 : a ≤ 0 ∨ b ≤ 0
  · simp [validateParams, h1]
  · have h2 : s ≤ 0 := by
      push Not at h1
      by_contra hs; exact h ⟨h1.1, h1.2, not_le.1 hs⟩
    simp [validateParams, h1, h2]

/-- Where the density is infinite. -/
def E (a : ℝ) : Set ℝ := {x | x = 0 ∧ a < 1}

theorem E_finite : (E a).Finite := Set.Finite.subset (toFinite {0}) fun _ h => h.1

theorem div_lt_zero' {x : ℝ} (hs : 0 < s) : x / s < 0 ↔ x < 0 := by rw [div_lt_iff₀ hs, zero_mul]

theorem upper_flip (ha : 0 < a) (hb : 0 < b) {z : ℝ} (h : 0 ≤ z) :
    betaInt b a (1 / (1 + z)) 1 / betaFn b a = F a b z := by
  have h1 := u_nonneg h
  have h2 := u_lt_one h
  rw [← one_sub_u h, betaD.upper hb ha (by linarith) (by linarith), betaD.P_compl ha hb h1 h2.le, F_nonneg_arg h]; ring
theorem lower_flip (ha : 0 < a) (hb : 0 < b) {z : ℝ} (h : 0 ≤ z) :
    betaInt b a 0 (1 / (1 + z)) / betaFn b a = 1 - F a b z := by
  have h1 := u_nonneg h
  have h2 := u_lt_one h
  have h3 := betaD.P_compl ha hb h1 h2.le
  rw [← one_sub_u h, F_nonneg_arg h, ← h3, betaD.P]

theorem cdf_eval (ha : 0 < a) (hb : 0 < b) (hs : 0 < s) (x : ℝ) :
    cdf (fin x) (fin a) (fin b) (fin s) = .ok (fin (F a b (x / s))) := by
  rcases lt_or_ge x 0 with h | h
  · simp [cdf, validate_ok ha hb hs, h, F_nonpos ((div_lt_zero' hs).2 h).le]
  · have hz : 0 ≤ x / s := div_nonneg h hs.le
    have h1 : 0 < 1 + x / s := by linarith
    have i0 : 0 ≤ 1 / (1 + x / s) := by positivity
    have i1 : 1 / (1 + x / s) ≤ 1 := (div_le_one h1).2 (by linarith)
    have e0 := u_nonneg hz
    have e1 := (u_lt_one hz).le
    rw [u] at e0 e1
    simp only [cdf, validate_ok ha hb hs, ok_bind, zero_def, one_def, fin_lt, h.not_gt, if_false, fin_eq_pinf, fin_div _ hs.ne', gt_iff,
      fin_add, fin_div _ h1.ne', mp.betaincReg_fin hb ha i0 i1 zero_le_one le_rfl, mp.betaincReg_fin ha hb le_rfl zero_le_one e0 e1,
      upper_flip ha hb hz]
    rw [F_nonneg_arg hz, betaD.P, u, ite_self]

theorem sf_eval (ha : 0 < a) (hb : 0 < b) (hs : 0 < s) (x : ℝ) :
    sf (fin x) (fin a) (fin b) (fin s) = .ok (fin (1 - F a b (x / s))) := by
  rcases lt_or_ge x 0 with h | h
  · simp [sf, validate_ok ha hb hs, h, F_nonpos ((div_lt_zero' hs).2 h).le]
  · have hz : 0 ≤ x / s := div_nonneg h hs.le
    have h1 : 0 < 1 + x / s := by linarith
    have i0 : 0 ≤ 1 / (1 + x / s) := by positivity
    have i1 : 1 / (1 + x / s) ≤ 1 := (div_le_one h1).2 (by linarith)
    have e0 := u_nonneg hz
    have e1 := (u_lt_one hz).le
    have hu := betaD.upper ha hb e0 e1
    rw [u] at e0 e1
    simp only [sf, validate_ok ha hb hs, ok_bind, zero_def, one_def, fin_lt, h.not_gt, if_false, fin_eq_pinf, fin_div _ hs.ne', gt_iff,
      fin_add, fin_div _ h1.ne', mp.betaincReg_fin hb ha le_rfl zero_le_one i0 i1, mp.betaincReg_fin ha hb e0 e1 zero_le_one le_rfl,
      lower_flip ha hb hz]
    rw [F_nonneg_arg hz, ← hu, u, ite_self]

theorem cdf_pinf (ha : 0 < a) (hb : 0 < b) (hs : 0 < s) : cdf pinf (fin a) (fin b) (fin s) = .ok (fin 1) := by
  simp [cdf, validate_ok ha hb hs]
theorem sf_pinf (ha : 0 < a) (hb : 0 < b) (hs : 0 < s) : sf pinf (fin a) (fin b) (fin s) = .ok (fin 0) := by
  simp [sf, validate_ok ha hb hs]

theorem pdf_eval (ha : 0 < a) (hb : 0 < b) (hs : 0 < s) {x : ℝ} (hx : x ∉ E a) :
    pdf (fin x) (fin a) (fin b) (fin s) = .ok (fin (f a b (x / s) / s)) := by
  rcases lt_or_ge x 0 with h | h
  · simp [pdf, validate_ok ha hb hs, h, f_neg ((div_lt_zero' hs).2 h)]
  · have hz : 0 ≤ x / s := div_nonneg h hs.le
    have h1 : 0 < 1 + x / s := by linarith
    have hc : ¬ (x = 0 ∧ a < 1) := hx
    have hp : mp.power (fin (x / s)) (fin (a - 1)) = .ok (fin ((x / s) ^ (a - 1))) := power_of_nonneg hz fun e => by
      by_contra hh
      exact hc ⟨(div_eq_zero_iff.1 e).resolve_right hs.ne', by linarith⟩
    simp only [pdf, validate_ok ha hb hs, ok_bind, zero_def, one_def, fin_lt, h.not_gt, if_false, fin_eq, hc, fin_div _ hs.ne', fin_sub,
      fin_add, hp, mp.power_pos h1, fin_div _ (Real.rpow_pos_of_pos h1 _).ne', mp.beta_fin ha hb, fin_div _ (betaFn_pos ha hb).ne',
      f_of_nonneg hz, g]

theorem logpdf_pos (ha : 0 < a) (hb : 0 < b) (hs : 0 < s) {x : ℝ} (h : 0 < x) :
    logpdf (fin x) (fin a) (fin b) (fin s) = .ok (fin (Real.log (f a b (x / s) / s))) := by
  have hz : 0 < x / s := div_pos h hs
  rw [f_of_nonneg hz.le, Real.log_div (g_pos ha hb hz).ne' hs.ne', log_g ha hb hz]
  simp only [logpdf, validate_ok ha hb hs, ok_bind, zero_def, one_def, fin_lt, h.le.not_gt, if_false, fin_eq, h.ne', false_and,
    fin_div _ hs.ne', fin_sub, fin_add, fun_.xlogy_eval hz, fun_.xlog1py_eval (show -1 < x / s by linarith), fun_.logbeta_pos ha hb,
    mp.log_pos hs, pure_eq_ok]
theorem logpdf_neg (ha : 0 < a) (hb : 0 < b) (hs : 0 < s) {x : ℝ} (h : x < 0) : logpdf (fin x) (fin a) (fin b) (fin s) = .ok ninf := by
  simp [logpdf, validate_ok ha hb hs, h]
theorem logpdf_zero (ha : 0 < a) (hb : 0 < b) (hs : 0 < s) : logpdf (fin 0) (fin a) (fin b) (fin s) =
    .ok (if a < 1 then pinf else if a = 1 then fin (-Real.log (betaFn a b) - Real.log s) else ninf) := by
  by_cases h : a < 1
  · simp [logpdf, validate_ok ha hb hs, h]
  have h2 : fun_.xlog1py (fin (a + b)) (fin 0) = .ok (fin 0) := by
    rw [fun_.xlog1py_eval (by norm_num)]; simp
  have h1 : fun_.xlogy (fin (a - 1)) (fin 0) = .ok (if a = 1 then fin 0 else ninf) := by
    by_cases h1 : a = 1
    · simp [fun_.xlogy, h1]
    · have h3 : a - 1 ≠ 0 := sub_ne_zero.2 h1
      have h4 : 0 < a - 1 := (sub_nonneg.2 (not_lt.1 h)).lt_of_ne' h3
      simp [fun_.xlogy, h1, h3, mp.log_zero, fin_mul_ninf, scaleInf_pos h4]
  simp only [logpdf, validate_ok ha hb hs, ok_bind, zero_def, one_def, fin_lt, lt_irrefl, if_false, fin_eq, h, and_false,
    fin_div _ hs.ne', zero_div, fin_sub, fin_add, h1, h2, fun_.logbeta_pos ha hb, mp.log_pos hs, pure_eq_ok]
  split_ifs <;> simp

theorem f_zero (ha : 1 < a) : f a b 0 = 0 := by
  rw [f_of_nonneg le_rfl, g, Real.zero_rpow (by linarith), zero_div, zero_div]

theorem isDist (ha : 0 < a) (hb : 0 < b) (hs : 0 < s) : IsDist (fun x => F a b (x / s)) (fun x => f a b (x / s) / s) :=
  (bpD.isDist ha hb).scale hs

theorem F_Qs (ha : 0 < a) (hb : 0 < b) (hs : 0 < s) (p : ℝ) (h0 : 0 < p) (h1 : p < 1) : F a b (s * Q a b p / s) = p := by
  rw [mul_div_cancel_left₀ _ hs.ne', F_Q ha hb p h0 h1]
theorem F_Q0 (ha : 0 < a) (hb : 0 < b) (hs : 0 < s) (p : ℝ) (h0 : 0 < p) (h1 : p < 1) :
    (fun x => F a b (x / s)) (0 + s * Q a b p) = p := by
  simpa only [zero_add] using F_Qs ha hb hs p h0 h1
theorem F_unique (ha : 0 < a) (hb : 0 < b) (hs : 0 < s) {x : ℝ} (hx : 0 < x) (y : ℝ) (h : F a b (y / s) = F a b (x / s)) : y = x := by
  have := F_inj ha hb (div_pos hx hs) _ h
  rwa [div_left_inj' hs.ne'] at this
theorem F_mems (ha : 0 < a) (hb : 0 < b) (hs : 0 < s) {x : ℝ} (hx : 0 < x) : 0 < F a b (x / s) ∧ F a b (x / s) < 1 :=
  F_mem ha hb (div_pos hx hs)

theorem hasMV (ha : 0 < a) (hb : 2 < b) (hs : 0 < s) :
    HasMV (fun x => f a b (x / s) / s) (0 + s * m a b 1) (s ^ 2 * (m a b 2 - m a b 1 ^ 2)) :=
  hasMV_of_affine (isDist ha (by linarith) hs) (F_Q0 ha (by linarith) hs) (Y1 ha (by linarith)) (Yn ha (by linarith) 2 (by exact_mod_cast hb))

theorem mean_eval (ha : 0 < a) (hb : 1 < b) (hs : 0 < s) : mean (fin a) (fin b) (fin s) = .ok (fin (s * a / (b - 1))) := by
  have h : b - 1 ≠ 0 := by linarith
  simp only [mean, validate_ok ha (by linarith : 0 < b) hs, ok_bind, one_def, fin_le, hb.not_ge, if_false, fin_mul, fin_sub, fin_div _ h]
theorem var_eval (ha : 0 < a) (hb : 2 < b) (hs : 0 < s) :
    var (fin a) (fin b) (fin s) = .ok (fin (s ^ 2 * (a * (a + b - 1)) / ((b - 2) * (b - 1) ^ 2))) := by
  have h1 : 0 < b - 1 := by linarith
  have h2 : 0 < b - 2 := by linarith
  have h : (b - 2) * (b - 1) ^ 2 ≠ 0 := by positivity
  simp only [var, validate_ok ha (by linarith : 0 < b) hs, ok_bind, one_def, ofNat_def, fin_le, hb.not_ge, if_false, fin_mul, fin_sub,
    fin_add, mp.ipow_fin, fin_div _ h]
theorem mode_eval (ha : 1 ≤ a) (hb : 0 < b) (hs : 0 < s) : mode (fin a) (fin b) (fin s) = .ok (fin (s * (a - 1) / (b + 1))) := by
  have h : b + 1 ≠ 0 := by linarith
  simp only [mode, validate_ok (by linarith : 0 < a) hb hs, ok_bind, one_def, fin_lt, ha.not_gt, if_false, fin_mul, fin_sub, fin_add,
    fin_div _ h]
theorem moment_eval (ha : 0 < a) (hs : 0 < s) (n : ℕ) (hn : n < b) :
    noncentralMoment n (fin a) (fin b) (fin s) = .ok (fin (s ^ n * m a b n)) := by
  have hv : validateMomentN (n : ℤ) = .ok n := by simp [validateMomentN]
  have hb : 0 < b := lt_of_le_of_lt (Nat.cast_nonneg n) hn
  simp only [noncentralMoment, hv, ok_bind, validate_ok ha hb hs, ge_iff, fin_le, hn.not_ge, if_false, fin_add, fin_sub,
    mp.beta_fin (by positivity : 0 < a + n) (by linarith : 0 < b - n), mp.beta_fin ha hb, mp.ipow_fin, fin_mul,
    fin_div _ (betaFn_pos ha hb).ne', m, mul_div_assoc]
theorem entropy_eval (ha : 0 < a) (hb : 0 < b) (hs : 0 < s) : entropy (fin a) (fin b) (fin s) =
    .ok (fin (Real.log (betaFn a b) + (1 - a) * psi a - (1 + b) * psi b + (a + b) * psi (a + b) + Real.log s)) := by
  have h2 : (2:ℝ) ≠ 0 := by norm_num
  have h2a : 0 < 2 * a := by positivity
  have hr : 0 < 2 * b / (2 * a) := by positivity
  have hq : 0 < a / b * s := by positivity
  simp only [entropy, validate_ok ha hb hs, ok_bind, one_def, ofNat_def, fin_mul, fin_div _ hb.ne', fin_div _ h2,
    mul_div_cancel_left₀ _ h2, fin_div _ h2a.ne', mp.log_pos hr, fun_.logbeta_pos ha hb, mp.digamma_pos ha, mp.digamma_pos hb,
    fin_add, mp.digamma_pos (add_pos ha hb), fin_sub, mp.log_pos hq, pure_eq_ok]
  rw [Real.log_div (by positivity) (by positivity), Real.log_mul h2 hb.ne', Real.log_mul h2 ha.ne', Real.log_mul (by positivity) hs.ne',
    Real.log_div ha.ne' hb.ne']
  congr 2; ring

end Mpsci.betaprime
