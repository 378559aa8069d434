import Verif.Model.Fit.Beta
import Verif.Lemmas.Dist.Beta
import Verif.Lemmas.Fit.Basic
import Verif.Lemmas.Fit.Pareto
import Verif.Spec.RootFinder

/-! The likelihood of the beta distribution. -/

namespace Mpsci.beta

open Classical Num Spec common Set betaD

variable {a b : ℝ} {xs : List ℝ}

/-- data in the open interval -/
def Data (xs : List ℝ) : Prop := ∀ x ∈ xs, 0 < x ∧ x < 1

theorem bounds (hx : Data xs) : validateXBounds (xs.map fin) (some (fin 0)) (some (fin 1)) true true = .ok (xs.map fin) :=
  validateXBounds_ok (by rw [badLow_strict]; rintro ⟨x, h, h0⟩; exact h0.not_gt (hx x h).1)
    (by rw [badHigh_strict]; rintro ⟨x, h, h0⟩; exact h0.not_gt (hx x h).2)

theorem bounds_bad (h : ¬ Data xs) : validateXBounds (xs.map fin) (some (fin 0)) (some (fin 1)) true true = .error .valueError := by
  unfold Data at h
  push Not at h
  obtain ⟨x, hx, h⟩ := h
  by_cases h0 : x ≤ 0
  · exact validateXBounds_low (badLow_strict.2 ⟨x, hx, h0⟩)
  · exact validateXBounds_high (badHigh_strict.2 ⟨x, hx, h (not_le.1 h0)⟩)

noncomputable def l (a b x : ℝ) : ℝ := (a - 1) * Real.log x + (b - 1) * Real.log (1 - x) - Real.log (betaFn a b)

noncomputable def S1 (xs : List ℝ) : ℝ := (xs.map Real.log).sum
noncomputable def S2 (xs : List ℝ) : ℝ := (xs.map fun x => Real.log (1 - x)).sum

/-- the negative log-likelihood -/
noncomputable def L (xs : List ℝ) (a b : ℝ) : ℝ := xs.length * Real.log (betaFn a b) - (a - 1) * S1 xs - (b - 1) * S2 xs

theorem sum_l (xs : List ℝ) (a b : ℝ) : -(xs.map (l a b)).sum = L xs a b := by
  induction xs with
  | nil => simp [L, S1, S2]
  | cons x t ih =>
    rw [List.map_cons, List.sum_cons, neg_add, ih]
    simp only [L, S1, S2, l, List.map_cons, List.sum_cons, List.length_cons]
    push_cast; ring

theorem nll_eval (hx : Data xs) (ha : 0 < a) (hb : 0 < b) : nll (xs.map fin) (fin a) (fin b) = .ok (fin (L xs a b)) := by
  have h : (xs.map fin).mapM (fun x => logpdf x (fin a) (fin b)) = .ok ((xs.map (l a b)).map fin) :=
    mapM_logpdf fun x hm => logpdf_mid ha hb (hx x hm).1 (hx x hm).2
  simp only [nll, validate_ok ha hb, ok_bind, zero_def, one_def, bounds hx, h, mp.fsum_fin, neg_fin, pure_eq_ok, sum_l]

/-- the likelihood equations give the minimum -/
theorem L_min (ha : 0 < a) (hb : 0 < b) (h1 : S1 xs = xs.length * (psi a - psi (a + b))) (h2 : S2 xs = xs.length * (psi b - psi (a + b)))
    {a' b' : ℝ} (ha' : 0 < a') (hb' : 0 < b') : L xs a b ≤ L xs a' b' := by
  have h := mul_le_mul_of_nonneg_left (logBeta_tangent ha hb ha' hb') (Nat.cast_nonneg (α := ℝ) xs.length)
  rw [L, L, h1, h2]
  linarith

theorem L_minA (ha : 0 < a) (hb : 0 < b) (h1 : S1 xs = xs.length * (psi a - psi (a + b))) {a' : ℝ} (ha' : 0 < a') : L xs a b ≤ L xs a' b := by
  have h := mul_le_mul_of_nonneg_left (logBeta_tangent ha hb ha' hb) (Nat.cast_nonneg (α := ℝ) xs.length)
  rw [L, L, h1]
  linarith

theorem L_minB (ha : 0 < a) (hb : 0 < b) (h2 : S2 xs = xs.length * (psi b - psi (a + b))) {b' : ℝ} (hb' : 0 < b') : L xs a b ≤ L xs a b' := by
  have h := mul_le_mul_of_nonneg_left (logBeta_tangent ha hb ha hb') (Nat.cast_nonneg (α := ℝ) xs.length)
  rw [L, L, h2]
  linarith

theorem logs (hx : Data xs) : (xs.map fin).mapM (fun t => mp.log t) = .ok ((xs.map Real.log).map fin) :=
  mapM_logpdf fun x hm => mp.log_pos (hx x hm).1

theorem log1ms (hx : Data xs) : (xs.map fin).mapM (fun t => mp.log1p (-t)) = .ok ((xs.map fun x => Real.log (1 - x)).map fin) :=
  mapM_logpdf fun x hm => by rw [neg_fin, mp_log1p_neg (hx x hm).2]

theorem compl (hx : Data xs) : Data (xs.map fun x => 1 - x) := by
  intro x h
  obtain ⟨y, hy, rfl⟩ := List.mem_map.1 h
  have := hx y hy
  exact ⟨by linarith, by linarith⟩

theorem mleFunc_eval (ha : 0 < a) (hb : 0 < b) (n s : ℝ) : mleFunc (fin a) (fin b) (fin n) (fin s) = .ok (fin (s - n * (-psi (a + b) + psi a))) := by
  simp only [mleFunc, fin_add, mp.digamma_pos (add_pos ha hb), mp.digamma_pos ha, ok_bind, neg_fin, fin_mul, fin_sub, pure_eq_ok]

theorem mean_mem (hn : xs ≠ []) (hx : Data xs) : 0 < sampleMean xs ∧ sampleMean xs < 1 := by
  have h0 := length_pos hn
  have h : 0 < xs.sum ∧ xs.sum < xs.length := by
    clear h0
    induction xs with
    | nil => exact absurd rfl hn
    | cons x t ih =>
      have h1 := hx x (by simp)
      by_cases ht : t = []
      · subst ht; simpa using h1
      · have h2 := ih ht fun y hy => hx y (by simp [hy])
        simp only [List.sum_cons, List.length_cons]
        push_cast
        exact ⟨by linarith, by linarith⟩
  exact ⟨div_pos h.1 h0, (div_lt_one h0).2 h.2⟩

/-- a solution for one parameter -/
theorem mleOne_sound {findroot1 : (Num → M Num) → Num → M Num} (hr : SoundFinder findroot1) (hx : Data xs) {xbar : Num} {p : Param} (hb : 0 < b)
    (h : mleOne findroot1 (xs.map fin) xbar p (fin b) = .ok (fin a)) (ha : 0 < a) : S1 xs = xs.length * (psi a - psi (a + b)) := by
  simp only [mleOne, logs hx, ok_bind, mp.fsum_fin, len_fin] at h
  obtain ⟨d, -, h⟩ := ok_of_bind h
  have h1 := hr _ _ _ h
  simp only [mleFunc_eval ha hb] at h1
  have h2 : (xs.map Real.log).sum - xs.length * (-psi (a + b) + psi a) = 0 := Num.fin.inj (Except.ok.inj h1)
  rw [S1]; linarith

end Mpsci.beta
