import Verif.Lemmas.Fit.Weibull

/-! `nll` and `mle` of `weibull_min` and `weibull_max`. -/

namespace Mpsci.weibull_min

open Classical Num Spec common weibull_common

variable {k s loc : ℝ} {xs : List ℝ} {findroot : (Num → M Num) → Num → M Num}

theorem shifted_pos (hn : xs ≠ []) (hx : ∀ x ∈ xs, loc < x) : (xs.map fun x => x - loc) ≠ [] ∧ ∀ y ∈ xs.map fun x => x - loc, 0 < y := by
  refine ⟨by simpa using hn, ?_⟩
  simp only [List.mem_map, forall_exists_index, and_imp, forall_apply_eq_imp_iff₂]
  intro x hm; have := hx x hm; linarith

/-- C30 -/
theorem nll_spec (hk : 0 < k) (hs : 0 < s) :
    NllIsNegSum {x | loc < x} (logpdf · (fin k) (fin loc) (fin s)) (nll · (fin k) (fin loc) (fin s)) :=
  nll_of_fsum (l := fun x => l k s (x - loc)) (fun _ hx => logpdf_l hk hs hx) fun _ hx => nll_unfold hk hs hx

/-- C30: data that are not above `loc` are rejected. -/
theorem nll_rejects (hk : 0 < k) (hs : 0 < s) : NllRejects {x | loc < x} (nll · (fin k) (fin loc) (fin s)) := by
  rintro xs ⟨x, hx, h⟩
  have h1 : validateXBounds (xs.map fin) (some (fin loc)) none true false = .error .valueError :=
    validateXBounds_low (badLow_strict.2 ⟨x, hx, not_lt.1 h⟩)
  simp only [nll, validate_ok _ hk hs, ok_bind, h1]
  rfl

/-- C30 -/
theorem nll_invalid (h : k ≤ 0 ∨ s ≤ 0) (xs : List Num) (loc : Num) : nll xs (fin k) loc (fin s) = .error .valueError := by
  simp only [nll, validate_bad _ h]; rfl

/-- C31: with `k` fixed (and `loc`, which always is), the scale maximises the likelihood. -/
theorem mle_fixedK (hn : xs ≠ []) (hx : ∀ x ∈ xs, loc < x) (hk : 0 < k) : ∃ s : ℝ,
    mle findroot (xs.map fin) (some (fin k)) (some (fin loc)) none = .ok (fin k, fin loc, fin s) ∧
    IsMle (fun s : ℝ => 0 < s) (fun s => nll (xs.map fin) (fin k) (fin loc) (fin s)) s := by
  obtain ⟨hn', h0⟩ := shifted_pos hn hx
  obtain ⟨s, hs, h1, h2⟩ := mleShifted_k (findroot := findroot) (loc := fin loc) hn' h0 hk
  refine ⟨s, (mle_shift hx _ _).trans h1, isMle_of hs (fun t ht => nll_eval hn hk ht hx) fun t ht =>
    mul_le_mul_of_nonneg_left (scale_min hn' h0 hs h2 ht) (by positivity)⟩

/-- C31: with the scale fixed, if the root finder returns a positive `k`, it maximises the likelihood.  Missing: that the
secant method returns a root, and that it is positive. -/
theorem mle_fixedScale_partial (hf : SoundFinder findroot) (hn : xs ≠ []) (hx : ∀ x ∈ xs, loc < x) (hs : 0 < s) {a b : Num}
    (h : mle findroot (xs.map fin) none (some (fin loc)) (some (fin s)) = .ok (fin k, a, b)) (hk : 0 < k) :
    a = fin loc ∧ b = fin s ∧ IsMle (fun t : ℝ => 0 < t) (fun t => nll (xs.map fin) (fin t) (fin loc) (fin s)) k := by
  obtain ⟨hn', h0⟩ := shifted_pos hn hx
  rw [mle_shift hx] at h
  obtain ⟨h1, h2, h3⟩ := mleShifted_scale hf hn' h0 hs hk h
  exact ⟨h1, h2, isMle_of hk (fun t ht => nll_eval hn ht hs hx) fun t ht =>
    mul_le_mul_of_nonneg_left (k_min hk hs h0 h3 ht) (by positivity)⟩

/-- C31: with only `loc` given, if the root finder returns a positive `k`, the estimates maximise the likelihood over all
`k` and scales.  Missing: that the secant method returns a root, and that it is positive. -/
theorem mle_isMle_partial (hf : SoundFinder findroot) (hn : xs ≠ []) (hx : ∀ x ∈ xs, loc < x) {a b : Num}
    (h : mle findroot (xs.map fin) none (some (fin loc)) none = .ok (fin k, a, b)) (hk : 0 < k) :
    a = fin loc ∧ ∃ s : ℝ, b = fin s ∧
    IsMle (fun θ : ℝ × ℝ => 0 < θ.1 ∧ 0 < θ.2) (fun θ => nll (xs.map fin) (fin θ.1) (fin loc) (fin θ.2)) (k, s) := by
  obtain ⟨hn', h0⟩ := shifted_pos hn hx
  rw [mle_shift hx] at h
  obtain ⟨h1, s, hs, h2, h3, h4⟩ := mleShifted_both hf hn' h0 hk h
  exact ⟨h1, s, h2, isMle_of ⟨hk, hs⟩ (fun θ h => nll_eval hn h.1 h.2 hx) fun θ h =>
    mul_le_mul_of_nonneg_left (both_min hn' h0 hk hs h3 h4 h.1 h.2) (by positivity)⟩

/-- C31: `loc` must be given, data that are not above it are rejected, and so are invalid fixed parameters; if everything
is fixed it is returned. -/
theorem mle_errors (xs : List ℝ) : (∀ x a b, mle findroot x a none b = .error .valueError) ∧
    ((∃ x ∈ xs, ¬ loc < x) → ∀ a b, mle findroot (xs.map fin) a (some (fin loc)) b = .error .valueError) ∧
    ((∀ x ∈ xs, loc < x) → (k ≤ 0 → ∀ b, mle findroot (xs.map fin) (some (fin k)) (some (fin loc)) b = .error .valueError) ∧
      (s ≤ 0 → ∀ a, mle findroot (xs.map fin) a (some (fin loc)) (some (fin s)) = .error .valueError) ∧
      (0 < k → 0 < s → mle findroot (xs.map fin) (some (fin k)) (some (fin loc)) (some (fin s)) = .ok (fin k, fin loc, fin s))) := by
  refine ⟨fun x a b => rfl, fun ⟨x, hx, h⟩ a b => ?_, fun hx => ⟨fun hk b => ?_, fun hs a => ?_, fun hk hs => ?_⟩⟩
  · have h1 : validateXBounds (xs.map fin) (some (fin loc)) none true false = .error .valueError :=
      validateXBounds_low (badLow_strict.2 ⟨x, hx, not_lt.1 h⟩)
    simp only [mle, h1]; rfl
  · rw [mle_shift hx]; simp [mleShifted, hk]
  · rw [mle_shift hx]; simp [mleShifted, hs]
  · rw [mle_shift hx]; simp [mleShifted, hk.not_ge, hs.not_ge]

/-- Non-vacuity: for the data 2, 3 and `loc = 1`, `k = 1`, the scale is 3/2. -/
example : (∀ x ∈ [(2:ℝ), 3], 1 < x) ∧ mle findroot ([2, 3].map fin) (some (fin 1)) (some (fin 1)) none = .ok (fin 1, fin 1, fin (3 / 2)) := by
  have hx : ∀ x ∈ [(2:ℝ), 3], 1 < x := by simp
  refine ⟨hx, ?_⟩
  rw [mle_shift hx]
  simp [mleShifted, stats.pmean, stats.mean, stats.len, one_def]
  norm_num [mp.fsum, fin_div]

/-- Non-vacuity: there are data for which the equations for `k` have the root 1. -/
example : (∃ y : ℝ, 0 < y ∧ mleKEqn2 (fin 1) ([y].map fin) (fin 1) = .ok 0) ∧
    ∃ y : ℝ, 0 < y ∧ mleKEqn1 (fin 1) ([1, y].map fin) = .ok 0 := by
  have e1 : (2:ℝ) ≤ Real.exp 1 := le_trans (by norm_num) (Real.add_one_le_exp 1)
  constructor
  · obtain ⟨u, hu, h⟩ := intermediate_value_Icc (f := fun u : ℝ => u * (Real.exp u - 1)) (zero_le_one' ℝ) (by fun_prop)
      (show (1:ℝ) ∈ Set.Icc _ _ from ⟨by simp, by simp only [one_mul]; linarith⟩)
    refine ⟨Real.exp u, Real.exp_pos u, ?_⟩
    rw [eqn2_eval (by simp) (by simp [Real.exp_pos]) one_ne_zero one_pos, zero_def]
    simp only at h
    simp [A, D, sampleMean]
    linarith
  · obtain ⟨u, hu, h⟩ := intermediate_value_Icc (f := fun u : ℝ => u * (Real.exp u / (1 + Real.exp u) - 1 / 2)) (show (0:ℝ) ≤ 4 by norm_num)
      (by
        refine Continuous.continuousOn ?_
        have : ∀ u, 1 + Real.exp u ≠ 0 := fun u => by positivity
        fun_prop (disch := exact this _))
      (show (1:ℝ) ∈ Set.Icc _ _ from ⟨by simp, by
        have : Real.exp 1 ≤ Real.exp 4 := Real.exp_le_exp.2 (by norm_num)
        have h2 : 1 / 4 + 1 / 2 ≤ Real.exp 4 / (1 + Real.exp 4) := by
          have h3 : (5:ℝ) ≤ Real.exp 4 := le_trans (by norm_num) (Real.add_one_le_exp 4)
          rw [le_div_iff₀ (by positivity)]; linarith
        linarith⟩)
    refine ⟨Real.exp u, Real.exp_pos u, ?_⟩
    rw [eqn1_eval (by simp) (by simp [Real.exp_pos]) one_ne_zero, zero_def]
    simp only at h
    have h3 : 1 + Real.exp u ≠ 0 := by positivity
    simp [A, D, sampleMean]
    field_simp at h ⊢
    linarith

end Mpsci.weibull_min

namespace Mpsci.weibull_max

open Classical Num Spec common weibull_common

variable {k s loc : ℝ} {xs : List ℝ} {findroot : (Num → M Num) → Num → M Num}

theorem shifted_pos (hn : xs ≠ []) (hx : ∀ x ∈ xs, x < loc) : (xs.map fun x => -x + loc) ≠ [] ∧ ∀ y ∈ xs.map fun x => -x + loc, 0 < y := by
  refine ⟨by simpa using hn, ?_⟩
  simp only [List.mem_map, forall_exists_index, and_imp, forall_apply_eq_imp_iff₂]
  intro x hm; have := hx x hm; linarith

/-- C30 -/
theorem nll_spec (hk : 0 < k) (hs : 0 < s) :
    NllIsNegSum {x | x < loc} (logpdf · (fin k) (fin loc) (fin s)) (nll · (fin k) (fin loc) (fin s)) :=
  nll_of_fsum (l := fun x => l k s (-x + loc)) (fun _ hx => logpdf_l hk hs hx) fun _ hx => nll_unfold hk hs hx

/-- C30: data that are not below `loc` are rejected. -/
theorem nll_rejects (hk : 0 < k) (hs : 0 < s) : NllRejects {x | x < loc} (nll · (fin k) (fin loc) (fin s)) := by
  rintro xs ⟨x, hx, h⟩
  have h1 : validateXBounds (xs.map fin) none (some (fin loc)) false true = .error .valueError :=
    validateXBounds_high (badHigh_strict.2 ⟨x, hx, not_lt.1 h⟩)
  simp only [nll, validate_ok _ hk hs, ok_bind, h1]
  rfl

/-- C30 -/
theorem nll_invalid (h : k ≤ 0 ∨ s ≤ 0) (xs : List Num) (loc : Num) : nll xs (fin k) loc (fin s) = .error .valueError := by
  simp only [nll, validate_bad _ h]; rfl

/-- C31: with `k` fixed (and `loc`, which always is), the scale maximises the likelihood. -/
theorem mle_fixedK (hn : xs ≠ []) (hx : ∀ x ∈ xs, x < loc) (hk : 0 < k) : ∃ s : ℝ,
    mle findroot (xs.map fin) (some (fin k)) (some (fin loc)) none = .ok (fin k, fin loc, fin s) ∧
    IsMle (fun s : ℝ => 0 < s) (fun s => nll (xs.map fin) (fin k) (fin loc) (fin s)) s := by
  obtain ⟨hn', h0⟩ := shifted_pos hn hx
  obtain ⟨s, hs, h1, h2⟩ := mleShifted_k (findroot := findroot) (loc := fin loc) hn' h0 hk
  refine ⟨s, (mle_shift hx _ _).trans h1, isMle_of hs (fun t ht => nll_eval hn hk ht hx) fun t ht =>
    mul_le_mul_of_nonneg_left (scale_min hn' h0 hs h2 ht) (by positivity)⟩

/-- C31: with the scale fixed, if the root finder returns a positive `k`, it maximises the likelihood.  Missing: that the
secant method returns a root, and that it is positive. -/
theorem mle_fixedScale_partial (hf : SoundFinder findroot) (hn : xs ≠ []) (hx : ∀ x ∈ xs, x < loc) (hs : 0 < s) {a b : Num}
    (h : mle findroot (xs.map fin) none (some (fin loc)) (some (fin s)) = .ok (fin k, a, b)) (hk : 0 < k) :
    a = fin loc ∧ b = fin s ∧ IsMle (fun t : ℝ => 0 < t) (fun t => nll (xs.map fin) (fin t) (fin loc) (fin s)) k := by
  obtain ⟨hn', h0⟩ := shifted_pos hn hx
  rw [mle_shift hx] at h
  obtain ⟨h1, h2, h3⟩ := mleShifted_scale hf hn' h0 hs hk h
  exact ⟨h1, h2, isMle_of hk (fun t ht => nll_eval hn ht hs hx) fun t ht =>
    mul_le_mul_of_nonneg_left (k_min hk hs h0 h3 ht) (by positivity)⟩

/-- C31: with only `loc` given, if the root finder returns a positive `k`, the estimates maximise the likelihood over all
`k` and scales.  Missing: that the secant method returns a root, and that it is positive. -/
theorem mle_isMle_partial (hf : SoundFinder findroot) (hn : xs ≠ []) (hx : ∀ x ∈ xs, x < loc) {a b : Num}
    (h : mle findroot (xs.map fin) none (some (fin loc)) none = .ok (fin k, a, b)) (hk : 0 < k) :
    a = fin loc ∧ ∃ s : ℝ, b = fin s ∧
    IsMle (fun θ : ℝ × ℝ => 0 < θ.1 ∧ 0 < θ.2) (fun θ => nll (xs.map fin) (fin θ.1) (fin loc) (fin θ.2)) (k, s) := by
  obtain ⟨hn', h0⟩ := shifted_pos hn hx
  rw [mle_shift hx] at h
  obtain ⟨h1, s, hs, h2, h3, h4⟩ := mleShifted_both hf hn' h0 hk h
  exact ⟨h1, s, h2, isMle_of ⟨hk, hs⟩ (fun θ h => nll_eval hn h.1 h.2 hx) fun θ h =>
    mul_le_mul_of_nonneg_left (both_min hn' h0 hk hs h3 h4 h.1 h.2) (by positivity)⟩

/-- C31: `loc` must be given, data that are not below it are rejected, and so are invalid fixed parameters; if everything
is fixed it is returned. -/
theorem mle_errors (xs : List ℝ) : (∀ x a b, mle findroot x a none b = .error .valueError) ∧
    ((∃ x ∈ xs, ¬ x < loc) → ∀ a b, mle findroot (xs.map fin) a (some (fin loc)) b = .error .valueError) ∧
    ((∀ x ∈ xs, x < loc) → (k ≤ 0 → ∀ b, mle findroot (xs.map fin) (some (fin k)) (some (fin loc)) b = .error .valueError) ∧
      (s ≤ 0 → ∀ a, mle findroot (xs.map fin) a (some (fin loc)) (some (fin s)) = .error .valueError) ∧
      (0 < k → 0 < s → mle findroot (xs.map fin) (some (fin k)) (some (fin loc)) (some (fin s)) = .ok (fin k, fin loc, fin s))) := by
  refine ⟨fun x a b => rfl, fun ⟨x, hx, h⟩ a b => ?_, fun hx => ⟨fun hk b => ?_, fun hs a => ?_, fun hk hs => ?_⟩⟩
  · have h1 : validateXBounds (xs.map fin) none (some (fin loc)) false true = .error .valueError :=
      validateXBounds_high (badHigh_strict.2 ⟨x, hx, not_lt.1 h⟩)
    simp only [mle, h1]; rfl
  · rw [mle_shift hx]; simp [mleShifted, hk]
  · rw [mle_shift hx]; simp [mleShifted, hs]
  · rw [mle_shift hx]; simp [mleShifted, hk.not_ge, hs.not_ge]

end Mpsci.weibull_max
