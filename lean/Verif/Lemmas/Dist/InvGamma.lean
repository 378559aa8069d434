import Verif.Model.Dist.InvGamma
import Verif.Lemmas.InvGammaDist
import Verif.Lemmas.NewtonLoop
import Verif.Lemmas.NoMoment
import Verif.Lemmas.Psi

namespace Mpsci.invgamma

open Classical Num common Filter Topology Set invgammaD

variable {a loc s : ℝ}

theorem validate_ok (ha : 0 < a) (hs : 0 < s) : validateParams (fin a) (fin loc) (fin s) = .ok (fin a, fin loc, fin s) := by
  simp [validateParams, ha.not_ge, hs.not_ge]
theorem validate_bad (h : ¬ (0 < a ∧ 0 < s)) : validateParams (fin a) (fin loc) (fin s) = .error .valueError := by
  by_cases hk : a ≤ 0
  · simp [validateParams, hk]
  have : s ≤ 0 := by
    by_contra hs; exact h ⟨not_le.1 hk, not_le.1 hs⟩
  simp [validateParams, hk, this]

theorem isDist (ha : 0 < a) (hs : 0 < s) : IsDist (fun x => F a ((x - loc) / s)) (fun x => f a ((x - loc) / s) / s) :=
  (invgammaD.isDist ha).affine loc hs

theorem cdf_eval (ha : 0 < a) (hs : 0 < s) (x : ℝ) : cdf (fin x) (fin a) (fin loc) (fin s) = .ok (fin (F a ((x - loc) / s))) := by
  rcases le_or_gt x loc with h | h
  · simp [cdf, validate_ok ha hs, h, F_nonpos ((affine_le_zero hs).2 h)]
  · have hz : 0 < (x - loc) / s := (affine_gt_zero hs).2 h
    have hz1 : 0 ≤ 1 / ((x - loc) / s) := by positivity
    simp only [cdf, validate_ok ha hs, ok_bind, fin_le, h.not_ge, if_false, fin_sub, fin_div _ hs.ne', one_def, fin_div _ hz.ne',
      mp.gammaincReg_pinf ha hz1, F_pos hz, gammaD.gammaTail_eq ha hz1]
theorem sf_eval (ha : 0 < a) (hs : 0 < s) (x : ℝ) : sf (fin x) (fin a) (fin loc) (fin s) = .ok (fin (1 - F a ((x - loc) / s))) := by
  rcases le_or_gt x loc with h | h
  · simp [sf, validate_ok ha hs, h, F_nonpos ((affine_le_zero hs).2 h)]
  · have hz : 0 < (x - loc) / s := (affine_gt_zero hs).2 h
    have hz1 : 0 ≤ 1 / ((x - loc) / s) := by positivity
    simp only [sf, validate_ok ha hs, ok_bind, fin_le, h.not_ge, if_false, fin_sub, fin_div _ hs.ne', one_def, fin_div _ hz.ne', zero_def,
      mp.gammaincReg_fin ha le_rfl hz1, F_pos hz, gammaD.P, sub_sub_cancel]

theorem f_pos (ha : 0 < a) (hs : 0 < s) {x : ℝ} (h : loc < x) : 0 < f a ((x - loc) / s) / s :=
  div_pos (invgammaD.f_pos ha ((affine_gt_zero hs).2 h)) hs
theorem f_zero (_ : 0 < a) (hs : 0 < s) : ∀ x, x ∉ Ioi loc → f a ((x - loc) / s) / s = 0 := fun x hx => by
  rw [f_nonpos ((affine_le_zero hs).2 (not_lt.1 hx)), zero_div]

theorem logpdf_pos (ha : 0 < a) (hs : 0 < s) {x : ℝ} (h : loc < x) :
    logpdf (fin x) (fin a) (fin loc) (fin s) = .ok (fin (Real.log (f a ((x - loc) / s) / s))) := by
  have hz : 0 < (x - loc) / s := (affine_gt_zero hs).2 h
  rw [Real.log_div (invgammaD.f_pos ha hz).ne' hs.ne', log_f ha hz]
  simp only [logpdf, validate_ok ha hs, ok_bind, fin_le, h.not_ge, if_false, fin_sub, fin_div _ hs.ne', one_def, fin_div _ hz.ne',
    mp.log_pos hs, mp.log_pos hz, mp.loggamma_pos ha, fin_add, fin_mul, neg_fin, pure_eq_ok]
  congr 2; ring
theorem logpdf_low (ha : 0 < a) (hs : 0 < s) {x : ℝ} (h : x ≤ loc) : logpdf (fin x) (fin a) (fin loc) (fin s) = .ok ninf := by
  simp [logpdf, validate_ok ha hs, h]
theorem pdf_eval (ha : 0 < a) (hs : 0 < s) (x : ℝ) : pdf (fin x) (fin a) (fin loc) (fin s) = .ok (fin (f a ((x - loc) / s) / s)) := by
  rcases le_or_gt x loc with h | h
  · simp [pdf, validate_ok ha hs, h, f_zero ha hs x (not_lt.2 h)]
  · simp only [pdf, validate_ok ha hs, ok_bind, fin_le, h.not_ge, if_false, logpdf_pos ha hs h, mp.exp_fin, Real.exp_log (f_pos ha hs h),
      pure_eq_ok]

theorem pdf_returns (ha : 0 < a) (hs : 0 < s) (x : ℝ) : Spec.Returns (pdf (fin x) (fin a) (fin loc) (fin s)) := ⟨_, pdf_eval ha hs x⟩
theorem logpdf_returns (ha : 0 < a) (hs : 0 < s) (x : ℝ) : Spec.Returns (logpdf (fin x) (fin a) (fin loc) (fin s)) := by
  rcases le_or_gt x loc with h | h
  · exact ⟨_, logpdf_low ha hs h⟩
  · exact ⟨_, logpdf_pos ha hs h⟩

theorem F_Q (ha : 0 < a) (hs : 0 < s) (p : ℝ) (h0 : 0 < p) (h1 : p < 1) : F a ((loc + s * Q a p - loc) / s) = p := by
  rw [add_sub_cancel_left, mul_div_cancel_left₀ _ hs.ne']; exact invgammaD.F_Q ha p h0 h1

theorem one_div_pinf : (fin 1 /. pinf) = .ok (fin 0) := rfl
theorem cdf_pinf (ha : 0 < a) (hs : 0 < s) : cdf pinf (fin a) (fin loc) (fin s) = .ok (fin 1) := by
  have h := gammaD.gammaTail_eq ha le_rfl
  simp only [gammaD.P_zero, sub_zero] at h
  have h0 : ¬ pinf ≤ fin loc := by simp
  have h1 : pinf - fin loc = pinf := rfl
  simp only [cdf, validate_ok ha hs, ok_bind, h0, if_false, h1, pinf_div_pos hs, one_def, one_div_pinf, mp.gammaincReg_pinf ha le_rfl, h]
theorem sf_pinf (ha : 0 < a) (hs : 0 < s) : sf pinf (fin a) (fin loc) (fin s) = .ok (fin 0) := by
  have h0 : ¬ pinf ≤ fin loc := by simp
  have h1 : pinf - fin loc = pinf := rfl
  have h := gammaD.P_zero (k := a)
  simp only [gammaD.P] at h
  simp only [sf, validate_ok ha hs, ok_bind, h0, if_false, h1, pinf_div_pos hs, one_def, zero_def, one_div_pinf,
    mp.gammaincReg_fin ha le_rfl le_rfl, h]

theorem mode_eval (ha : 0 < a) (hs : 0 < s) : mode (fin a) (fin loc) (fin s) = .ok (fin (loc + s * (1 / (a + 1)))) := by
  have h : a + 1 ≠ 0 := by positivity
  simp only [mode, validate_ok ha hs, ok_bind, one_def, fin_add, fin_div _ h, pure_eq_ok, mul_one_div]

/-! ### The Newton steps -/

theorem step_spec (ha : 0 < a) (hs : 0 < s) {eps : ℝ} (he : 0 < eps) {p : ℝ} (h0 : 0 < p) (h1 : p < 1) {step : Num → M Num}
    (hst : ∀ x, loc < x → step (fin x) = .ok (fin (x + (p - F a ((x - loc) / s)) / (f a ((x - loc) / s) / s)))) :
    ∃ y, loc < y ∧ y ∈ uIcc (loc + s * (1 / (a + 1))) (loc + s * Q a p) ∧
      Spec.Reaches (fun fuel => newtonLoop eps fuel step (fin (loc + s * (1 / (a + 1))))) (fin y) ∧
      |F a ((y - loc) / s) - p| ≤ eps * (f a ((loc + s * (1 / (a + 1)) - loc) / s) / s) *
        max 1 (max |loc + s * (1 / (a + 1))| |loc + s * Q a p|) := by
  have hz : ∀ x : ℝ, loc < x → 0 < (x - loc) / s := fun x h => (affine_gt_zero hs).2 h
  have hle : ∀ x y : ℝ, x ≤ y → (x - loc) / s ≤ (y - loc) / s := fun x y h => div_le_div_of_nonneg_right (by linarith) hs.le
  have hm : (loc + s * (1 / (a + 1)) - loc) / s = 1 / (a + 1) := by
    rw [add_sub_cancel_left, mul_div_cancel_left₀ _ hs.ne']
  refine newtonLoop_spec (F := fun x => F a ((x - loc) / s)) (f := fun x => f a ((x - loc) / s) / s) (a := loc) he
    (lt_add_of_pos_right _ (by positivity)) (lt_add_of_pos_right _ (mul_pos hs (Q_pos p))) ?_ (fun x hx => f_pos ha hs hx) ?_ ?_
    (F_Q ha hs p h0 h1) hst
  · intro x hx
    have h2 : HasDerivAt (fun x : ℝ => (x - loc) / s) (1 / s) x := ((hasDerivAt_id x).sub_const loc).div_const s
    exact (HasDerivAt.comp x (hasDerivAt_F ha (hz x hx)) h2).congr_deriv (by rw [mul_one_div])
  · intro x y hx hxy hy
    refine div_le_div_of_nonneg_right (f_mono ha (hz x hx) (hle x y hxy) ?_) hs.le
    have := hle _ _ hy
    rwa [hm] at this
  · intro x y hx hxy
    refine div_le_div_of_nonneg_right (f_anti ha (hle x y hxy) ?_) hs.le
    have := hle _ _ hx
    rwa [hm] at this

/-! ### Moments -/

theorem hasMV (ha : 2 < a) (hs : 0 < s) : HasMV (fun x => f a ((x - loc) / s) / s)
    (loc + s * (1 / (a - 1))) (s ^ 2 * (1 / ((a - 1) * (a - 2)) - (1 / (a - 1)) ^ 2)) :=
  hasMV_of_affine (isDist (by linarith) hs) (F_Q (by linarith) hs) (Y1 (by linarith)) (Y2 ha)

theorem mean_eval (ha : 1 < a) (hs : 0 < s) : mean (fin a) (fin loc) (fin s) = .ok (fin (loc + s * (1 / (a - 1)))) := by
  have h : a - 1 ≠ 0 := by linarith
  simp only [mean, validate_ok (by linarith : 0 < a) hs, ok_bind, one_def, fin_lt, ha, if_true, fin_sub, fin_div _ h, fin_add, pure_eq_ok,
    mul_one_div]
theorem var_eval (ha : 2 < a) (hs : 0 < s) : var (fin a) (fin loc) (fin s) =
    .ok (fin (s ^ 2 * (1 / ((a - 1) * (a - 2)) - (1 / (a - 1)) ^ 2))) := by
  have h1 : a - 1 ≠ 0 := by linarith
  have h2 : a - 2 ≠ 0 := by linarith
  simp only [var, validate_ok (by linarith : 0 < a) hs, ok_bind, one_def, ofNat_def, fin_lt, ha, if_true, fin_sub, mp.ipow_fin,
    fin_div _ (pow_ne_zero 2 h1), fin_div _ h2]
  congr 2; field_simp; ring

/-- the moments of the standard distribution as the code computes them -/
noncomputable def SM (a : ℝ) (n : ℕ) : ℝ := Real.Gamma (a - n) / Real.Gamma a

theorem snm_eval (ha : 0 < a) {n : ℕ} (h : n < a) : standardNoncentralMoment n (fin a) = .ok (fin (SM a n)) := by
  rcases Nat.eq_zero_or_pos n with rfl | hn
  · simp [standardNoncentralMoment, SM, (gammaD.Gpos ha).ne']
  · have h1 : ¬ a ≤ n := not_le.2 h
    simp only [standardNoncentralMoment, hn.ne', if_false, fin_le, h1, fin_sub, mp.gammaprod_pos (sub_pos.2 h) ha, SM]

theorem snm_nan {n : ℕ} (ha : 0 < a) (h : a ≤ n) : standardNoncentralMoment n (fin a) = .ok nan := by
  have : n ≠ 0 := by rintro rfl; simp at h; linarith
  simp [standardNoncentralMoment, this, h]

theorem fsum_nan {l : List Num} (h : nan ∈ l) : mp.fsum l = nan := by
  induction l with
  | nil => simp at h
  | cons x l ih =>
    rw [mp.fsum_cons]
    rcases List.mem_cons.1 h with rfl | h
    · rfl
    · rw [ih h]; cases x <;> rfl

end Mpsci.invgamma
