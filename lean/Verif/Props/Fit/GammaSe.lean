import Verif.Model.Fit.GammaSe
import Verif.Props.Fit.Gamma
import Verif.Lemmas.Dist.Normal

/-! Standard errors and confidence intervals of the gamma distribution. -/

namespace Mpsci.gamma

open Classical Num Spec common Set

variable {k s : ℝ} {xs : List ℝ}

theorem diag_eval (hk : 0 < k) (hs : 0 < s) (hd : det xs k s ≠ 0) : nllInvhessDiag (xs.map fin) (fin k) (fin s) =
    .ok (fin ((2 * xs.sum / s ^ 3 - xs.length * k / s ^ 2) / det xs k s), fin (xs.length * psi1 k / det xs k s)) := by
  have e : -(xs.length:ℝ) * psi1 k * (-2 * xs.sum / s ^ 3 + xs.length * k / s ^ 2) - (-(xs.length:ℝ) / s) ^ 2 = det xs k s := by rw [det]; ring
  simp only [nllInvhessDiag, validate_ok hk hs, ok_bind, len_fin, mp.fsum_fin, psi1_eval hk, mp.ipow_fin, ofNat_def, neg_fin,
    fin_div _ hs.ne', fin_div _ (pow_ne_zero 2 hs.ne'), fin_div _ (pow_ne_zero 3 hs.ne'), fin_mul, fin_sub, fin_add, e, fin_div _ hd, pure_eq_ok]
  congr 3 <;> ring

theorem diag_singular (hk : 0 < k) (hs : 0 < s) (hd : det xs k s = 0) : nllInvhessDiag (xs.map fin) (fin k) (fin s) = .error .zeroDivision := by
  have e : -(xs.length:ℝ) * psi1 k * (-2 * xs.sum / s ^ 3 + xs.length * k / s ^ 2) - (-(xs.length:ℝ) / s) ^ 2 = 0 := by
    rw [← hd, det]; ring
  simp only [nllInvhessDiag, validate_ok hk hs, ok_bind, len_fin, mp.fsum_fin, psi1_eval hk, mp.ipow_fin, ofNat_def, neg_fin,
    fin_div _ hs.ne', fin_div _ (pow_ne_zero 2 hs.ne'), fin_div _ (pow_ne_zero 3 hs.ne'), fin_mul, fin_sub, fin_add, e, fin_div_zero]
  rfl

theorem det_H : (H xs k s).det = det xs k s := by rw [H, Matrix.det_fin_two_of, det]; ring

/-- C67: `_nll_invhess_diag` is the diagonal of the inverse of the Hessian matrix of the negative log-likelihood. -/
theorem nllInvhessDiag_spec (xs : List ℝ) (hk : 0 < k) (hs : 0 < s) {V : Matrix (Fin 2) (Fin 2) ℝ} {H : Matrix (Fin 2) (Fin 2) ℝ}
    (hH : nllHess (xs.map fin) (fin k) (fin s) = .ok (mat H)) (hV : V * H = 1) :
    nllInvhessDiag (xs.map fin) (fin k) (fin s) = .ok (fin (V 0 0), fin (V 1 1)) := by
  rw [hess_eval hk hs] at hH
  have hH' : gamma.H xs k s = H := by
    have h := Except.ok.inj hH
    simp only [mat, Prod.mk.injEq, fin.injEq] at h
    ext i j
    fin_cases i <;> fin_cases j
    exacts [h.1.1, h.1.2, h.2.1, h.2.2]
  subst hH'
  have hd : det xs k s ≠ 0 := fun h0 => by
    have := congrArg Matrix.det hV
    rw [Matrix.det_mul, det_H, h0, mul_zero, Matrix.det_one] at this
    exact zero_ne_one this
  obtain ⟨H', e1, h | h⟩ := nllInvhess_spec xs hk hs
  · obtain ⟨V', e2, h1, h2⟩ := h
    rw [hess_eval hk hs] at e1
    have hH' : gamma.H xs k s = H' := by
      have h := Except.ok.inj e1
      simp only [mat, Prod.mk.injEq, fin.injEq] at h
      ext i j
      fin_cases i <;> fin_cases j
      exacts [h.1.1, h.1.2, h.2.1, h.2.2]
    subst hH'
    have hVV : V = V' := by rw [← mul_one V, ← h2, ← mul_assoc, hV, one_mul]
    rw [invhess_eval hk hs hd] at e2
    have h := Except.ok.inj e2
    simp only [mat, Prod.mk.injEq, fin.injEq] at h
    rw [diag_eval hk hs hd, hVV, ← h.1.1, ← h.2.2]
    rfl
  · rw [invhess_eval hk hs hd] at h
    exact absurd h.2 (by simp)

/-- C67: when the Hessian matrix is singular, the code divides by zero. -/
theorem nllInvhessDiag_singular (xs : List ℝ) (hk : 0 < k) (hs : 0 < s) {H : Matrix (Fin 2) (Fin 2) ℝ}
    (hH : nllHess (xs.map fin) (fin k) (fin s) = .ok (mat H)) (hd : H.det = 0) :
    nllInvhessDiag (xs.map fin) (fin k) (fin s) = .error .zeroDivision ∧ mleSe (xs.map fin) (fin k) (fin s) = .error .zeroDivision := by
  rw [hess_eval hk hs] at hH
  have hH' : gamma.H xs k s = H := by
    have h := Except.ok.inj hH
    simp only [mat, Prod.mk.injEq, fin.injEq] at h
    ext i j
    fin_cases i <;> fin_cases j
    exacts [h.1.1, h.1.2, h.2.1, h.2.2]
  subst hH'
  rw [det_H] at hd
  have := diag_singular hk hs hd
  exact ⟨this, by simp only [mleSe, validate_ok hk hs, ok_bind, this]; rfl⟩

/-- C67: the standard errors are the square roots of the diagonal of the inverse of the Hessian matrix. -/
theorem mleSe_spec (xs : List ℝ) (hk : 0 < k) (hs : 0 < s) {V : Matrix (Fin 2) (Fin 2) ℝ} {H : Matrix (Fin 2) (Fin 2) ℝ}
    (hH : nllHess (xs.map fin) (fin k) (fin s) = .ok (mat H)) (hV : V * H = 1) (h0 : 0 ≤ V 0 0) (h1 : 0 ≤ V 1 1) :
    mleSe (xs.map fin) (fin k) (fin s) = .ok (fin (√(V 0 0)), fin (√(V 1 1))) := by
  simp only [mleSe, validate_ok hk hs, ok_bind, nllInvhessDiag_spec xs hk hs hH hV, mp.sqrt_nonneg h0, mp.sqrt_nonneg h1, pure_eq_ok]

/-- C67: where the derivative of the likelihood with respect to the scale is zero, in particular at the maximum, the Hessian matrix is positive
definite and the standard errors exist and are positive. -/
theorem mleSe_pos (hn : xs ≠ []) (hx : ∀ x ∈ xs, 0 < x) (hk : 0 < k) (hs : 0 < s) {g : Num}
    (hg : nllGrad (xs.map fin) (fin k) (fin s) = .ok (g, 0)) :
    ∃ V H : Matrix (Fin 2) (Fin 2) ℝ, nllHess (xs.map fin) (fin k) (fin s) = .ok (mat H) ∧ V * H = 1 ∧ 0 < H 0 0 ∧ 0 < H.det ∧ 0 < V 0 0 ∧ 0 < V 1 1 ∧
      mleSe (xs.map fin) (fin k) (fin s) = .ok (fin (√(V 0 0)), fin (√(V 1 1))) := by
  have hl : (0:ℝ) < xs.length := length_pos hn
  rw [grad_eval hx hk hs] at hg
  have h2 : xs.sum / s ^ 2 - xs.length * k / s = 0 := by
    have := (Prod.mk.inj (Except.ok.inj hg)).2
    rw [zero_def, fin.injEq] at this
    linarith
  have hsum : xs.sum = xs.length * k * s := by
    have hs' := hs.ne'
    field_simp at h2
    nlinarith
  have hp1 : 0 < psi1 k * k - 1 := by
    have := D'_neg hk
    have h3 : 1 / k < psi1 k := by linarith
    rw [div_lt_iff₀ hk] at h3
    linarith
  have hpsi : 0 < psi1 k := by
    have h3 := D'_neg hk
    have : 0 < 1 / k := by positivity
    linarith
  have e1 : 2 * xs.sum / s ^ 3 - xs.length * k / s ^ 2 = xs.length * k / s ^ 2 := by rw [hsum]; field_simp; ring
  have e2 : det xs k s = xs.length ^ 2 / s ^ 2 * (psi1 k * k - 1) := by rw [det, e1]; field_simp
  have hd : 0 < det xs k s := by rw [e2]; positivity
  have hu : IsUnit (H xs k s).det := by rw [det_H]; exact hd.ne'.isUnit
  have hinv : (H xs k s)⁻¹ = !![(2 * xs.sum / s ^ 3 - xs.length * k / s ^ 2) / det xs k s, -(xs.length / s) / det xs k s;
      -(xs.length / s) / det xs k s, xs.length * psi1 k / det xs k s] := by
    rw [Matrix.inv_def, Ring.inverse_eq_inv', det_H, H, Matrix.adjugate_fin_two_of]
    ext i j
    fin_cases i <;> fin_cases j <;> simp [div_eq_inv_mul]
  have p0 : 0 < (H xs k s)⁻¹ 0 0 := by
    rw [hinv]
    show 0 < (2 * xs.sum / s ^ 3 - xs.length * k / s ^ 2) / det xs k s
    rw [e1]; positivity
  have p1 : 0 < (H xs k s)⁻¹ 1 1 := by
    rw [hinv]
    show 0 < xs.length * psi1 k / det xs k s
    positivity
  refine ⟨(H xs k s)⁻¹, H xs k s, hess_eval hk hs, Matrix.nonsing_inv_mul _ hu, ?_, by rw [det_H]; exact hd, p0, p1,
    mleSe_spec xs hk hs (hess_eval hk hs) (Matrix.nonsing_inv_mul _ hu) p0.le p1.le⟩
  show 0 < xs.length * psi1 k
  positivity

/-- C67: the intervals are centred at the estimates and reach `z` standard errors to each side, where `z` is the normal quantile of
`1 - alpha/2`; for `1 < alpha` the quantile is negative, that is, the ends come out reversed. -/
theorem mleCi_spec (hk : 0 < k) (hs : 0 < s) {a b alpha : ℝ} (h0 : 0 < alpha) (h2 : alpha < 2)
    (hse : mleSe (xs.map fin) (fin k) (fin s) = .ok (fin a, fin b)) : ∃ z : ℝ, normal.cdf (fin z) = .ok (fin (1 - alpha / 2)) ∧
      (0 < z ↔ alpha < 1) ∧
      mleCi (xs.map fin) (fin k) (fin s) (fin alpha) = .ok ((fin (k - z * a), fin (k + z * a)), (fin (s - z * b), fin (s + z * b))) := by
  have hq0 : 0 < alpha / 2 := by linarith
  have hq1 : alpha / 2 < 1 := by linarith
  refine ⟨-PhiInv (alpha / 2), ?_, ?_, ?_⟩
  · have := normal.cdf_eval (loc := 0) one_pos (-PhiInv (alpha / 2))
    rw [sub_zero, div_one, Phi_neg, Phi_PhiInv hq0 hq1] at this
    exact this
  · rw [neg_pos]
    constructor
    · intro h
      have := Phi_strictMono h
      rw [Phi_PhiInv hq0 hq1, Phi_zero] at this
      linarith
    · intro h
      refine Phi_strictMono.lt_iff_lt.1 ?_
      rw [Phi_PhiInv hq0 hq1, Phi_zero]; linarith
  · have hw : normal.invcdf (fin (alpha / 2)) = .ok (fin (PhiInv (alpha / 2))) := normal.std_invcdf hq0 hq1
    simp only [mleCi, validate_ok hk hs, ok_bind, hse, ofNat_def, fin_div _ (two_ne_zero), hw, fin_mul, fin_add, fin_sub, pure_eq_ok]
    congr 4 <;> congr 1 <;> ring

/-- C67: `alpha` outside `[0, 2]` is rejected. -/
theorem mleCi_rejects (hk : 0 < k) (hs : 0 < s) {a b : Num} {alpha : ℝ} (h : alpha < 0 ∨ 2 < alpha)
    (hse : mleSe (xs.map fin) (fin k) (fin s) = .ok (a, b)) : mleCi (xs.map fin) (fin k) (fin s) (fin alpha) = .error .valueError := by
  have hw : normal.invcdf (fin (alpha / 2)) = .error .valueError := by
    rw [normal.invcdf, validateP_bad (by rcases h with h | h; left; linarith; right; linarith)]; rfl
  simp only [mleCi, validate_ok hk hs, ok_bind, hse, ofNat_def, fin_div _ (two_ne_zero), hw]; rfl

/-- C67: invalid parameters are rejected. -/
theorem mleSe_invalid (h : ¬ (0 < k ∧ 0 < s)) (xs : List Num) (alpha : Num) : nllInvhessDiag xs (fin k) (fin s) = .error .valueError ∧
    mleSe xs (fin k) (fin s) = .error .valueError ∧ mleCi xs (fin k) (fin s) alpha = .error .valueError := by
  simp only [nllInvhessDiag, mleSe, mleCi, validate_bad h]
  exact ⟨rfl, rfl, rfl⟩

/-- The scale estimate with the shape fixed is such a point: here one datum `2`, `k = 1`, scale 2. -/
example : ∃ g, nllGrad [fin 2] (fin 1) (fin 2) = .ok (g, 0) := by
  have := grad_eval (xs := [2]) (k := 1) (s := 2) (by simp) one_pos two_pos
  have e : -(([2]:List ℝ).sum / 2 ^ 2 - ([2]:List ℝ).length * 1 / 2) = 0 := by norm_num
  rw [e] at this
  exact ⟨_, this⟩

end Mpsci.gamma
