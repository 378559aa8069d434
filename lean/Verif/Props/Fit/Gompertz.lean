import Verif.Lemmas.Fit.Gompertz
import Verif.Spec.RootFinder

/-! `gompertz.nll` and `gompertz.mle`. -/

namespace Mpsci.gompertz

open Classical Num Spec common

variable {c s : ℝ} {xs : List ℝ} {findroot : (Num → M Num) → Num → M Num} {p : Param}

/-- C30 -/
theorem nll_spec (hc : 0 < c) (hs : 0 < s) : NllIsNegSum {x | 0 ≤ x} (logpdf · (fin c) (fin s)) (nll · (fin c) (fin s)) :=
  nll_of_fsum (l := l c s) (fun _ hx => logpdf_l hc hs hx) fun _ hx => nll_unfold hc hs hx

/-- C30: negative data are rejected. -/
theorem nll_rejects (hc : 0 < c) (hs : 0 < s) : NllRejects {x | 0 ≤ x} (nll · (fin c) (fin s)) := by
  rintro xs ⟨x, hx, h⟩
  have h1 : validateXBounds (xs.map fin) (some (fin 0)) (some pinf) false true = .error .valueError :=
    validateXBounds_low (badLow_weak.2 ⟨x, hx, not_le.1 h⟩)
  simp only [nll, validate_ok hc hs, ok_bind, zero_def, h1]
  rfl

/-- C30 -/
theorem nll_invalid (h : ¬ (0 < c ∧ 0 < s)) (xs : List Num) : nll xs (fin c) (fin s) = .error .valueError := by
  simp only [nll, validate_bad h]; rfl

/-- C31: with the scale fixed, unless all data are 0, the shape maximises the likelihood. -/
theorem mle_fixedScale (hx : ∀ x ∈ xs, 0 ≤ x) (h' : ∃ x ∈ xs, x ≠ 0) (hs : 0 < s) : ∃ c : ℝ,
    mle findroot (xs.map fin) none (.fixed (fin s)) = .ok (fin c, fin s) ∧
    IsMle (fun c : ℝ => 0 < c) (fun c => nll (xs.map fin) (fin c) (fin s)) c := by
  have hn : xs ≠ [] := by obtain ⟨x, hx, -⟩ := h'; exact List.ne_nil_of_mem hx
  have hE := E_gt hs hx h'
  refine ⟨_, ?_, isMle_of (one_div_pos.2 hE) (fun c hc => nll_eval hn hc hs hx) fun c hc => ?_⟩
  · simp only [mle, zero_def, bounds hx, ok_bind, one_def, validate_ok one_pos hs, cFor_eval hn hs.ne' hE.ne', pure_eq_ok]
  · refine mul_le_mul_of_nonneg_left ?_ (by positivity)
    have := mul_sub_log_min hE hc
    linarith

/-- C31: with the shape fixed, if the root finder returns a positive scale, it maximises the likelihood, whatever the
starting value.  Missing: that the secant method returns a root, and that it is positive. -/
theorem mle_fixedShape_partial (hf : SoundFinder findroot) (hp : ∀ v, p ≠ .fixed v) (hn : xs ≠ []) (hx : ∀ x ∈ xs, 0 ≤ x)
    (hc : 0 < c) {c' : Num} (h : mle findroot (xs.map fin) (some (fin c)) p = .ok (c', fin s)) (hs : 0 < s) :
    c' = fin c ∧ IsMle (fun t : ℝ => 0 < t) (fun t => nll (xs.map fin) (fin c) (fin t)) s := by
  have h1 : ∃ r, findroot (fun s => mleScaleEqnFixed (xs.map fin) (fin (sampleMean xs)) (fin c) s) p.start = .ok r ∧
      (.ok (fin c, r) : M (Num × Num)) = .ok (c', fin s) := by
    cases p with
    | fixed v => exact absurd rfl (hp v)
    | none | initial v =>
      simp only [mle, zero_def, bounds hx, ok_bind, one_def, validate_ok hc one_pos, mean_fin hn] at h
      obtain ⟨r, h1, h2⟩ := ok_of_bind h
      exact ⟨r, h1, h2⟩
  obtain ⟨r, hr, h2⟩ := h1
  obtain ⟨rfl, rfl⟩ := Prod.mk.inj (Except.ok.inj h2)
  have h0 := hf _ _ _ hr
  rw [scaleEqnFixed_eval hn hs.ne', zero_def] at h0
  have h0 := fin.inj (Except.ok.inj h0)
  refine ⟨rfl, isMle_of hs (fun t ht => nll_eval hn hc ht hx) fun t ht => ?_⟩
  refine mul_le_mul_of_nonneg_left (scale_min hc hn hs ?_ ht) (by positivity)
  simpa using h0

/-- C31: with nothing fixed, if the root finder returns a positive scale, the estimates maximise the likelihood over all
shapes and scales, unless all data are 0.  Missing: that the secant method returns a root, and that it is positive. -/
theorem mle_isMle_partial (hf : SoundFinder findroot) (hp : ∀ v, p ≠ .fixed v) (hx : ∀ x ∈ xs, 0 ≤ x) (h' : ∃ x ∈ xs, x ≠ 0)
    {c' : Num} (h : mle findroot (xs.map fin) none p = .ok (c', fin s)) (hs : 0 < s) :
    ∃ c : ℝ, c' = fin c ∧ IsMle (fun θ : ℝ × ℝ => 0 < θ.1 ∧ 0 < θ.2) (fun θ => nll (xs.map fin) (fin θ.1) (fin θ.2)) (c, s) := by
  have hn : xs ≠ [] := by obtain ⟨x, hx, -⟩ := h'; exact List.ne_nil_of_mem hx
  have hE := E_gt hs hx h'
  have h1 : ∃ r, findroot (fun s => mleScaleEqn (xs.map fin) (fin (sampleMean xs)) s) p.start = .ok r ∧
      (do return (← cFor (xs.map fin) r, r) : M (Num × Num)) = .ok (c', fin s) := by
    cases p with
    | fixed v => exact absurd rfl (hp v)
    | none | initial v =>
      simp only [mle, zero_def, bounds hx, ok_bind, mean_fin hn] at h
      obtain ⟨r, h1, h2⟩ := ok_of_bind h
      exact ⟨r, h1, h2⟩
  obtain ⟨r, hr, h2⟩ := h1
  obtain ⟨a, h3, h4⟩ := ok_of_bind h2
  obtain ⟨rfl, rfl⟩ := Prod.mk.inj (Except.ok.inj h4)
  rw [cFor_eval hn hs.ne' hE.ne'] at h3
  have h0 := hf _ _ _ hr
  rw [scaleEqn_eval hn hs.ne' hE.ne', zero_def] at h0
  have h0 := fin.inj (Except.ok.inj h0)
  refine ⟨_, (Except.ok.inj h3).symm, isMle_of ⟨one_div_pos.2 hE, hs⟩ (fun θ h => nll_eval hn h.1 h.2 hx) fun θ h => ?_⟩
  refine mul_le_mul_of_nonneg_left (both_min hx h' hs ?_ h.1 h.2) (by positivity)
  simpa using h0

/-- C31: negative data are rejected, fixed parameters are validated and returned, and for data that are all 0 there is no
estimate of the shape. -/
theorem mle_errors (xs : List ℝ) : ((∃ x ∈ xs, x < 0) → ∀ a p, mle findroot (xs.map fin) a p = .error .valueError) ∧
    ((∀ x ∈ xs, 0 ≤ x) → mle findroot (xs.map fin) (some (fin c)) (.fixed (fin s)) =
      if 0 < c ∧ 0 < s then .ok (fin c, fin s) else .error .valueError) ∧
    (xs ≠ [] → (∀ x ∈ xs, x = 0) → 0 < s → mle findroot (xs.map fin) none (.fixed (fin s)) = .error .zeroDivision) := by
  refine ⟨fun ⟨x, hx, h⟩ a p => ?_, fun hx => ?_, fun hn h0 hs => ?_⟩
  · have h1 : validateXBounds (xs.map fin) (some (fin 0)) (some pinf) false true = .error .valueError :=
      validateXBounds_low (badLow_weak.2 ⟨x, hx, h⟩)
    simp only [mle, zero_def, h1]; rfl
  · simp only [mle, zero_def, bounds hx, ok_bind]
    by_cases h : 0 < c ∧ 0 < s
    · rw [if_pos h, validate_ok h.1 h.2]
    · rw [if_neg h, validate_bad h]
  · have hE : E xs s = 1 := by
      rw [E, sampleMean_congr (ψ := fun _ => 1) fun x hx => by rw [h0 x hx]; simp, sampleMean_const hn]
    have h1 := E_eval hn hs.ne'
    simp only [pure_eq_ok] at h1
    obtain ⟨a, h2, h3⟩ := ok_of_bind h1
    simp only [mle, zero_def, bounds fun x hx => (h0 x hx).ge, ok_bind, one_def, validate_ok one_pos hs, cFor, pure_eq_ok, h2, h3, hE, fin_sub,
      sub_self, fin_div_zero]
    rfl

/-- Non-vacuity: the data 0, 1; for the single observation 1 and `c = 2/e` the equation for the scale has the root 1. -/
example : (∀ x ∈ [(0:ℝ), 1], 0 ≤ x) ∧ (∃ x ∈ [(0:ℝ), 1], x ≠ 0) ∧
    mleScaleEqnFixed [fin 1] (fin 1) (fin (2 / Real.exp 1)) (fin 1) = .ok 0 := by
  refine ⟨by simp, ⟨1, by simp, by norm_num⟩, ?_⟩
  have h := scaleEqnFixed_eval (xs := [1]) (s := 1) (c := 2 / Real.exp 1) (by simp) (by norm_num) 1
  have e : -1 - 1 + 2 / Real.exp 1 * W [1] 1 = 0 := by
    have := (Real.exp_pos 1).ne'
    simp [W, sampleMean]; norm_num
  rw [e] at h
  exact h

end Mpsci.gompertz
