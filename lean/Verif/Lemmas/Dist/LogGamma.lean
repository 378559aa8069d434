import Verif.Model.Dist.LogGamma
import Verif.Lemmas.LogGammaDist
import Verif.Lemmas.Helpers
import Verif.Lemmas.Search
import Verif.Lemmas.Common

namespace Mpsci.loggamma

open Classical Num common Filter Topology Set loggammaD

variable {k s : ℝ} {findroot : (Num → M Num) → Num → Num → M Num}

theorem validate_ok (hk : 0 < k) (hs : 0 < s) : validateParams (fin k) (fin s) = .ok (fin k, fin s) := by
  simp [validateParams, hk.not_ge, hs.not_ge]
theorem validate_bad (h : ¬ (0 < k ∧ 0 < s)) : validateParams (fin k) (fin s) = .error .valueError := by
  by_cases hk : k ≤ 0
  · simp [validateParams, hk]
  have : s ≤ 0 := by
    by_contra hs; exact h ⟨not_le.1 hk, not_le.1 hs⟩
  simp [validateParams, hk, this]

theorem isDist (hk : 0 < k) (hs : 0 < s) : IsDist (fun x => F k (x / s)) (fun x => f k (x / s) / s) :=
  (loggammaD.isDist hk).scale hs

theorem cdf_eval (hk : 0 < k) (hs : 0 < s) (x : ℝ) : cdf (fin x) (fin k) (fin s) = .ok (fin (F k (x / s))) := by
  simp only [cdf, validate_ok hk hs, ok_bind, fin_div _ hs.ne', mp.exp_fin, zero_def,
    mp.gammaincReg_fin hk le_rfl (Real.exp_pos (x / s)).le, F, gammaD.P]
theorem sf_eval (hk : 0 < k) (hs : 0 < s) (x : ℝ) : sf (fin x) (fin k) (fin s) = .ok (fin (1 - F k (x / s))) := by
  simp only [sf, validate_ok hk hs, ok_bind, fin_div _ hs.ne', mp.exp_fin,
    mp.gammaincReg_pinf hk (Real.exp_pos (x / s)).le, F, gammaD.gammaTail_eq hk (Real.exp_pos (x / s)).le]

theorem f_pos (hk : 0 < k) (hs : 0 < s) (x : ℝ) : 0 < f k (x / s) / s := div_pos (loggammaD.f_pos hk _) hs

theorem pdf_eval (hk : 0 < k) (hs : 0 < s) (x : ℝ) : pdf (fin x) (fin k) (fin s) = .ok (fin (f k (x / s) / s)) := by
  simp only [pdf, validate_ok hk hs, ok_bind, fin_div _ hs.ne', mp.exp_fin, fin_mul, fin_sub, mp.gamma_pos hk,
    fin_div _ (gammaD.Gpos hk).ne', f]
theorem logpdf_eval (hk : 0 < k) (hs : 0 < s) (x : ℝ) :
    logpdf (fin x) (fin k) (fin s) = .ok (fin (Real.log (f k (x / s) / s))) := by
  rw [Real.log_div (loggammaD.f_pos hk _).ne' hs.ne', log_f hk]
  simp only [logpdf, validate_ok hk hs, ok_bind, fin_div _ hs.ne', mp.exp_fin, fin_mul, fin_sub, mp.loggamma_pos hk, mp.log_pos hs,
    pure_eq_ok]

theorem F_Q (hk : 0 < k) (hs : 0 < s) (p : ℝ) (h0 : 0 < p) (h1 : p < 1) : F k ((0 + s * Q k p) / s) = p := by
  rw [zero_add, mul_div_cancel_left₀ _ hs.ne']; exact loggammaD.F_Q hk p h0 h1
theorem F_strictMono (hk : 0 < k) (hs : 0 < s) : StrictMono fun x => F k (x / s) := fun _ _ h =>
  loggammaD.F_strictMono hk (div_lt_div_of_pos_right h hs)

theorem exp_ninf : mp.exp ninf = fin 0 := rfl
theorem exp_pinf : mp.exp pinf = pinf := rfl

theorem cdf_ninf (hk : 0 < k) (hs : 0 < s) : cdf ninf (fin k) (fin s) = .ok (fin 0) := by
  have h := gammaD.P_zero (k := k)
  simp only [gammaD.P] at h
  simp only [cdf, validate_ok hk hs, ok_bind, ninf_div_pos hs, exp_ninf, zero_def, mp.gammaincReg_fin hk le_rfl le_rfl, h]
theorem cdf_pinf (hk : 0 < k) (hs : 0 < s) : cdf pinf (fin k) (fin s) = .ok (fin 1) := by
  have h := gammaD.gammaTail_eq hk le_rfl
  simp only [gammaD.P_zero, sub_zero] at h
  simp only [cdf, validate_ok hk hs, ok_bind, pinf_div_pos hs, exp_pinf, zero_def, mp.gammaincReg_pinf hk le_rfl, h]
theorem sf_ninf (hk : 0 < k) (hs : 0 < s) : sf ninf (fin k) (fin s) = .ok (fin 1) := by
  have h := gammaD.gammaTail_eq hk le_rfl
  simp only [gammaD.P_zero, sub_zero] at h
  simp only [sf, validate_ok hk hs, ok_bind, ninf_div_pos hs, exp_ninf, mp.gammaincReg_pinf hk le_rfl, h]
theorem sf_pinf (hk : 0 < k) (hs : 0 < s) : sf pinf (fin k) (fin s) = .ok (fin 0) := by
  simp only [sf, validate_ok hk hs, ok_bind, pinf_div_pos hs, exp_pinf, mp.gammaincReg_pinf_pinf hk, zero_def]

theorem mode_eval (hk : 0 < k) (hs : 0 < s) : mode (fin k) (fin s) = .ok (fin (s * Real.log k)) := by
  simp only [mode, validate_ok hk hs, ok_bind, mp.log_pos hk, fin_mul, pure_eq_ok]
theorem mean_eval (hk : 0 < k) (hs : 0 < s) : mean (fin k) (fin s) = .ok (fin (s * psi k)) := by
  simp only [mean, validate_ok hk hs, ok_bind, mp.psi0_pos hk, fin_mul, pure_eq_ok]
theorem var_eval (hk : 0 < k) (hs : 0 < s) : var (fin k) (fin s) = .ok (fin (s ^ 2 * psi1 k)) := by
  simp only [var, validate_ok hk hs, ok_bind, mp.psi_pos 1 hk, iteratedDeriv_psi hk, mp.ipow_fin, fin_mul, pure_eq_ok]

/-- the bracket of the two searches -/
theorem bracket_cdf (hk : 0 < k) (hs : 0 < s) (x : ℝ) : ∃ lo hi N, lo ≤ x ∧ x ≤ hi ∧
    ∀ fuel ≥ N, findBracket fuel (fun t => cdf t (fin k) (fin s)) (fin (F k (x / s))) ninf pinf none = .ok (fin lo, fin hi) := by
  obtain ⟨lo, hi, N, -, -, h1, h2, -, h3⟩ := findBracket_mono (func := fun t => cdf t (fin k) (fin s)) (g := fun x => F k (x / s))
    (a := ninf) (b := pinf) (x := x) (by simp) (fun t _ => cdf_eval hk hs t) (cdf_ninf hk hs) (cdf_pinf hk hs)
    ((F_strictMono hk hs).strictMonoOn _) (fun t _ => (F_mem hk _).1.le) (fun t _ => (F_mem hk _).2.le) ⟨trivial, trivial⟩ rfl none
  exact ⟨lo, hi, N, h1, h2, h3⟩
theorem bracket_sf (hk : 0 < k) (hs : 0 < s) (x : ℝ) : ∃ lo hi N, lo ≤ x ∧ x ≤ hi ∧
    ∀ fuel ≥ N, findBracket fuel (fun t => sf t (fin k) (fin s)) (fin (1 - F k (x / s))) ninf pinf none = .ok (fin lo, fin hi) := by
  obtain ⟨lo, hi, N, -, -, h1, h2, -, h3⟩ := findBracket_anti (func := fun t => sf t (fin k) (fin s)) (g := fun x => 1 - F k (x / s))
    (a := ninf) (b := pinf) (x := x) (by simp) (fun t _ => sf_eval hk hs t) (sf_ninf hk hs) (sf_pinf hk hs)
    (fun a _ b _ h => sub_lt_sub_left (F_strictMono hk hs h) 1) (fun t _ => by linarith [(F_mem hk (t / s)).1])
    (fun t _ => by linarith [(F_mem hk (t / s)).2]) ⟨trivial, trivial⟩ rfl none
  exact ⟨lo, hi, N, h1, h2, h3⟩

end Mpsci.loggamma
