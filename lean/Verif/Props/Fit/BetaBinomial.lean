import Verif.Lemmas.Fit.BetaBinomial

/-! `betabinomial.nll` and `betabinomial.mle`. -/

namespace Mpsci.betabinomial

open Classical Num Spec common Finset

variable {n : ℕ} {a b : ℝ} {ks : List ℤ} {c : Option (List ℕ)} {findroot : (Num → M Num) → Num → M Num}
  {findroot2 : (Num → Num → M (Num × Num)) → Num × Num → M (Num × Num)} {pa pb : Param}

/-- C29, C30: `nll` is minus the sum of `logpmf`, and data with counts mean the replicated data. -/
theorem nll_spec (ha : 0 < a) (hb : 0 < b) : NllIsNegSumZ {k | 0 ≤ k ∧ k ≤ n} (logpmf · n (fin a) (fin b)) (nll · n (fin a) (fin b) none) ∧
    CountsReplicate {k | 0 ≤ k ∧ k ≤ n} (nll · n (fin a) (fin b) ·) :=
  nll_countsSpec (fun _ => logpmf_l ha hb) fun _ hk _ hc => nll_eval ha hb hk hc

/-- C29: unusable counts are rejected. -/
theorem nll_badCounts (ha : 0 < a) (hb : 0 < b) : CountsRejects {k | 0 ≤ k ∧ k ≤ n} (nll · n (fin a) (fin b) ·) := by
  intro ks c hk hc
  have h2 : validateCounts (ints ks) (some (c.map fin)) true = .error .valueError := validateCounts_bad (by simpa [ints] using hc) _
  simp only [nll, validate_ok n ha hb, ok_bind, zero_def, binomial.bounds hk, if_neg (not_not.2 (binomial.allInt ks)), h2]
  rfl

/-- The check of the data. -/
theorem data_bad {xs : List ℝ} (h : ∃ x ∈ xs, ¬ ∃ k : ℕ, k ≤ n ∧ x = k) :
    validateXBounds (xs.map fin) (some 0) (some (ofInt n)) false false = .error .valueError ∨
    validateXBounds (xs.map fin) (some 0) (some (ofInt n)) false false = .ok (xs.map fin) ∧ ¬ ∀ t ∈ xs.map fin, mp.isint t := by
  obtain ⟨x, hx, hn⟩ := h
  rw [zero_def]
  by_cases hb : badLow (xs.map fin) (some (fin 0)) false
  · exact Or.inl (validateXBounds_low hb)
  by_cases hb' : badHigh (xs.map fin) (some (ofInt n)) false
  · exact Or.inl (validateXBounds_high hb')
  · refine Or.inr ⟨validateXBounds_ok hb hb', fun h3 => ?_⟩
    rw [badLow_weak] at hb
    rw [ofInt_natCast, badHigh_weak] at hb'
    push Not at hb hb'
    obtain ⟨k, h4⟩ := h3 (fin x) (List.mem_map_of_mem hx)
    rw [ofInt_def] at h4
    obtain rfl := fin.inj h4
    have h5 : (0:ℤ) ≤ k := by exact_mod_cast hb _ hx
    have h6 : k ≤ (n:ℤ) := by exact_mod_cast hb' _ hx
    refine hn ⟨k.toNat, by omega, ?_⟩
    have : ((k.toNat : ℤ) : ℝ) = (k:ℝ) := by rw [Int.toNat_of_nonneg h5]
    rw [← this, Int.cast_natCast]

/-- C30: data that are not integers from 0 to n are rejected. -/
theorem nll_rejects (ha : 0 < a) (hb : 0 < b) (c : Option (List Num)) : NllRejects {x | ∃ k : ℕ, k ≤ n ∧ x = k} (nll · n (fin a) (fin b) c) := by
  intro xs h
  rcases data_bad h with h | ⟨h, h3⟩
  · simp only [nll, validate_ok n ha hb, ok_bind, h]; rfl
  · simp only [nll, validate_ok n ha hb, ok_bind, h, h3, not_false_eq_true, if_true]; rfl

/-- C30 -/
theorem nll_invalid {n : ℤ} (h : n < 0 ∨ a ≤ 0 ∨ b ≤ 0) (xs : List Num) (c : Option (List Num)) : nll xs n (fin a) (fin b) c = .error .valueError := by
  simp only [nll, validate_bad h]; rfl

/-- C31: `mle` requires a positive `n`, and data that are integers from 0 to n. -/
theorem mle_rejects : (∀ x c, mle findroot findroot2 x c none pa pb = .error .valueError) ∧
    (∀ x c, ∀ n : ℤ, n < 1 → mle findroot findroot2 x c (some n) pa pb = .error .valueError) ∧
    ∀ (xs : List ℝ) c, (∃ x ∈ xs, ¬ ∃ k : ℕ, k ≤ n ∧ x = k) → mle findroot findroot2 (xs.map fin) c (some n) pa pb = .error .valueError := by
  refine ⟨fun x c => rfl, fun x c n h => by simp [mle, h], fun xs c h => ?_⟩
  by_cases hn : (n:ℤ) < 1
  · simp [mle, hn]
  · rcases data_bad h with h | ⟨h, h3⟩
    · simp only [mle, hn, if_false, h]; rfl
    · simp only [mle, hn, if_false, h, ok_bind, h3, not_false_eq_true, if_true]; rfl

theorem mle_unfold (hn : 0 < n) (hk : ∀ k ∈ ks, 0 ≤ k ∧ k ≤ n) (hc : Matching ks c) :
    mle findroot findroot2 (ints ks) (counts c) (some (n:ℤ)) pa pb = mleFit findroot findroot2 (ints ks) (vcounts ks c) n pa pb := by
  have h1 : ¬ (n:ℤ) < 1 := by omega
  simp only [mle, h1, if_false, zero_def, binomial.bounds hk, ok_bind, if_neg (not_not.2 (binomial.allInt ks)), validate_vcounts hc]

/-- C31: fixed parameters are returned as they are; invalid ones are rejected. -/
theorem mle_fixed (hn : 0 < n) (hk : ∀ k ∈ ks, 0 ≤ k ∧ k ≤ n) (hc : Matching ks c) :
    (0 < a → 0 < b → mle findroot findroot2 (ints ks) (counts c) (some (n:ℤ)) (.fixed (fin a)) (.fixed (fin b)) = .ok ((n:ℤ), fin a, fin b)) ∧
    (a ≤ 0 → mle findroot findroot2 (ints ks) (counts c) (some (n:ℤ)) (.fixed (fin a)) pb = .error .valueError) ∧
    (b ≤ 0 → mle findroot findroot2 (ints ks) (counts c) (some (n:ℤ)) pa (.fixed (fin b)) = .error .valueError) := by
  refine ⟨fun ha hb => ?_, fun ha => ?_, fun hb => ?_⟩
  · rw [mle_unfold hn hk hc]; exact validate_ok n ha hb
  · rw [mle_unfold hn hk hc]
    cases pb with
    | fixed b =>
      have h1 : ¬ (n:ℤ) < 0 := by omega
      simp only [mleFit, validateParams, h1, if_false, zero_def, fin_le, ha, if_true]
      rfl
    | none => simp only [mleFit, one_def, validate_bad (b := 1) (Or.inr (Or.inl ha))]; rfl
    | initial x => simp only [mleFit, one_def, validate_bad (b := 1) (Or.inr (Or.inl ha))]; rfl
  · rw [mle_unfold hn hk hc]
    cases pa with
    | fixed a =>
      have h1 : ¬ (n:ℤ) < 0 := by omega
      simp only [mleFit, validateParams, h1, if_false, zero_def, fin_le, hb, if_true]
      by_cases h : a ≤ fin 0
      · simp only [h, if_true]; rfl
      · simp only [h, if_false]; rfl
    | none => simp only [mleFit, one_def, validate_bad (a := 1) (Or.inr (Or.inr hb))]; rfl
    | initial x => simp only [mleFit, one_def, validate_bad (a := 1) (Or.inr (Or.inr hb))]; rfl

/-- What `mle` does if `b` is fixed and `a` is not. -/
theorem mle_freeA (hn : 0 < n) (hb : 0 < b) (hk : ∀ k ∈ ks, 0 ≤ k ∧ k ≤ n) (hc : Matching ks c) (hp : ∀ v, pa ≠ .fixed v) :
    mle findroot findroot2 (ints ks) (counts c) (some (n:ℤ)) pa (.fixed (fin b)) =
      (findroot (eqnA (ints ks) (vcounts ks c) n (fin b)) pa.start >>= fun est => .ok ((n:ℤ), est, fin b)) := by
  rw [mle_unfold hn hk hc]
  cases pa with
  | fixed a => exact absurd rfl (hp a)
  | none => simp only [mleFit, one_def, validate_ok n one_pos hb, ok_bind, pure_eq_ok]
  | initial x => simp only [mleFit, one_def, validate_ok n one_pos hb, ok_bind, pure_eq_ok]

/-- What `mle` does if `a` is fixed and `b` is not. -/
theorem mle_freeB (hn : 0 < n) (ha : 0 < a) (hk : ∀ k ∈ ks, 0 ≤ k ∧ k ≤ n) (hc : Matching ks c) (hp : ∀ v, pb ≠ .fixed v) :
    mle findroot findroot2 (ints ks) (counts c) (some (n:ℤ)) (.fixed (fin a)) pb =
      (findroot (eqnB (ints ks) (vcounts ks c) n (fin a)) pb.start >>= fun est => .ok ((n:ℤ), fin a, est)) := by
  rw [mle_unfold hn hk hc]
  cases pb with
  | fixed a => exact absurd rfl (hp a)
  | none => simp only [mleFit, one_def, validate_ok n ha one_pos, ok_bind, pure_eq_ok]
  | initial x => simp only [mleFit, one_def, validate_ok n ha one_pos, ok_bind, pure_eq_ok]

/-- What `mle` does if neither is fixed. -/
theorem mle_freeAB (hn : 0 < n) (hk : ∀ k ∈ ks, 0 ≤ k ∧ k ≤ n) (hc : Matching ks c) (hp : ∀ v, pa ≠ .fixed v) (hp' : ∀ v, pb ≠ .fixed v) :
    mle findroot findroot2 (ints ks) (counts c) (some (n:ℤ)) pa pb =
      (findroot2 (eqns (ints ks) (vcounts ks c) n) (pa.start, pb.start) >>= fun est => .ok ((n:ℤ), est.1, est.2)) := by
  rw [mle_unfold hn hk hc]
  cases pa with
  | fixed a => exact absurd rfl (hp a)
  | none => cases pb with
    | fixed a => exact absurd rfl (hp' a)
    | none => simp only [mleFit, one_def, validate_ok n one_pos one_pos, ok_bind, pure_eq_ok]
    | initial x => simp only [mleFit, one_def, validate_ok n one_pos one_pos, ok_bind, pure_eq_ok]
  | initial y => cases pb with
    | fixed a => exact absurd rfl (hp' a)
    | none => simp only [mleFit, one_def, validate_ok n one_pos one_pos, ok_bind, pure_eq_ok]
    | initial x => simp only [mleFit, one_def, validate_ok n one_pos one_pos, ok_bind, pure_eq_ok]

/-- The reflected data. -/
theorem refl_sum {xs : List ℤ} (h : ∀ k ∈ xs, 0 ≤ k ∧ k ≤ n) : (xs.map (l n a b)).sum = ((xs.map fun k => (n:ℤ) - k).map (l n b a)).sum := by
  rw [List.map_map]
  exact congrArg List.sum (List.map_congr_left fun k hm => l_symm (h k hm))

theorem refl_mem {xs : List ℤ} (h : ∀ k ∈ xs, 0 ≤ k ∧ k ≤ n) : ∀ k ∈ xs.map fun k => (n:ℤ) - k, 0 ≤ k ∧ k ≤ n := by
  simp only [List.mem_map]
  rintro _ ⟨k, hm, rfl⟩
  have := h k hm
  omega

/-- C29, C31: with `b` fixed, the estimate of `a` (what is returned, if the search for a zero succeeds with a positive number) maximises the
likelihood; with or without counts. -/
theorem mle_isMleA (hf : SoundFinder findroot) (hn : 0 < n) (hb : 0 < b) (hk : ∀ k ∈ ks, 0 ≤ k ∧ k ≤ n) (hc : Matching ks c) (hp : ∀ v, pa ≠ .fixed v)
    (ha : 0 < a) {m : ℤ} {y : Num} (h : mle findroot findroot2 (ints ks) (counts c) (some (n:ℤ)) pa (.fixed (fin b)) = .ok (m, fin a, y)) :
    m = n ∧ y = fin b ∧ IsMle (fun a : ℝ => 0 < a) (fun a => nll (ints ks) n (fin a) (fin b) (counts c)) a := by
  rw [mle_freeA hn hb hk hc hp] at h
  obtain ⟨r, h1, h2⟩ := ok_of_bind h
  obtain ⟨e1, e2⟩ := Prod.mk.inj (Except.ok.inj h2)
  obtain ⟨e2, e3⟩ := Prod.mk.inj e2
  subst e2
  refine ⟨e1.symm, e3.symm, isMle_of ha (fun t ht => nll_eval ht hb hk hc) fun t ht => ?_⟩
  have h3 := hf _ _ _ h1
  rw [eqnA_eval ha hb hk, zero_def] at h3
  exact min_of_zero hb hn (fun k hm => hk k (meant_mem hm)) ha ht (fin.inj (Except.ok.inj h3))

/-- C29, C31: the same for `b`, with `a` fixed. -/
theorem mle_isMleB (hf : SoundFinder findroot) (hn : 0 < n) (ha : 0 < a) (hk : ∀ k ∈ ks, 0 ≤ k ∧ k ≤ n) (hc : Matching ks c) (hp : ∀ v, pb ≠ .fixed v)
    (hb : 0 < b) {m : ℤ} {y : Num} (h : mle findroot findroot2 (ints ks) (counts c) (some (n:ℤ)) (.fixed (fin a)) pb = .ok (m, y, fin b)) :
    m = n ∧ y = fin a ∧ IsMle (fun b : ℝ => 0 < b) (fun b => nll (ints ks) n (fin a) (fin b) (counts c)) b := by
  rw [mle_freeB hn ha hk hc hp] at h
  obtain ⟨r, h1, h2⟩ := ok_of_bind h
  obtain ⟨e1, e0⟩ := Prod.mk.inj (Except.ok.inj h2)
  obtain ⟨e2, e3⟩ := Prod.mk.inj e0
  subst e3
  have hm : ∀ k ∈ meant ks c, 0 ≤ k ∧ k ≤ n := fun k hm => hk k (meant_mem hm)
  refine ⟨e1.symm, e2.symm, isMle_of hb (fun t ht => nll_eval ha ht hk hc) fun t ht => ?_⟩
  have h3 := hf _ _ _ h1
  rw [eqnB_eval ha hb hk, zero_def] at h3
  rw [refl_sum hm, refl_sum hm]
  refine min_of_zero ha hn (refl_mem hm) hb ht ?_
  rw [List.map_map]
  exact fin.inj (Except.ok.inj h3)

/-- C31: for data that are not all 0 and not all n there are such estimates, and then the search can succeed. -/
theorem mle_exists (ha : 0 < a) (hb : 0 < b) (hk : ∀ k ∈ ks, 0 ≤ k ∧ k ≤ n) (h0 : ∃ k ∈ meant ks c, k ≠ 0) (h1 : ∃ k ∈ meant ks c, k ≠ n) :
    (∃ s : ℝ, 0 < s ∧ eqnA (ints ks) (vcounts ks c) n (fin b) (fin s) = .ok 0) ∧
    ∃ s : ℝ, 0 < s ∧ eqnB (ints ks) (vcounts ks c) n (fin a) (fin s) = .ok 0 := by
  have hm : ∀ k ∈ meant ks c, 0 ≤ k ∧ k ≤ n := fun k hm => hk k (meant_mem hm)
  constructor
  · obtain ⟨s, hs, e⟩ := exists_zero hb hm h0 h1
    exact ⟨s, hs, by rw [eqnA_eval hs hb hk, e]; rfl⟩
  · obtain ⟨k0, m0, h0⟩ := h0
    obtain ⟨k1, m1, h1⟩ := h1
    obtain ⟨s, hs, e⟩ := exists_zero ha (refl_mem hm) ⟨_, List.mem_map_of_mem m1, by omega⟩ ⟨_, List.mem_map_of_mem m0, by omega⟩
    refine ⟨s, hs, ?_⟩
    rw [List.map_map] at e
    rw [eqnB_eval ha hs hk]
    exact congrArg (fun x => Except.ok (fin x)) e

/-- C31, one of the likelihood equations has no solution if all data are 0 (the likelihood increases as `a` decreases to 0): with `b` fixed no
positive estimate is returned. -/
theorem mle_zeros (hf : SoundFinder findroot) (hn : 0 < n) (hb : 0 < b) (hk : ∀ k ∈ ks, k = 0) (hc : Matching ks c) (hne : meant ks c ≠ [])
    (hp : ∀ v, pa ≠ .fixed v) (ha : 0 < a) (m : ℤ) (y : Num) :
    mle findroot findroot2 (ints ks) (counts c) (some (n:ℤ)) pa (.fixed (fin b)) ≠ .ok (m, fin a, y) := by
  intro h
  have hk' : ∀ k ∈ ks, 0 ≤ k ∧ k ≤ n := fun k hm => by have := hk k hm; omega
  rw [mle_freeA hn hb hk' hc hp] at h
  obtain ⟨r, h1, h2⟩ := ok_of_bind h
  obtain ⟨e1, e2⟩ := Prod.mk.inj (Except.ok.inj h2)
  obtain ⟨e2, e3⟩ := Prod.mk.inj e2
  subst e2
  have h3 := hf _ _ _ h1
  rw [eqnA_eval ha hb hk', zero_def] at h3
  have h4 := fin.inj (Except.ok.inj h3)
  have h5 : ∀ k ∈ meant ks c, D n b k a < 0 := fun k hm => by
    rw [hk k (meant_mem hm)]
    have := D_eq (n := n) ha hb 0
    rw [Nat.cast_zero] at this
    rw [this]
    have : 0 < ∑ i ∈ range n, 1 / (a + b + i) := sum_pos (fun i _ => by positivity) ⟨0, mem_range.2 hn⟩
    simpa using this
  have h6 : ∀ xs : List ℤ, xs ≠ [] → (∀ k ∈ xs, D n b k a < 0) → (xs.map (D n b · a)).sum < 0 := by
    intro xs
    induction xs with
    | nil => intro h; exact absurd rfl h
    | cons k xs ih =>
      intro _ h
      rcases eq_or_ne xs [] with rfl | hx
      · simpa using h k (by simp)
      · have := ih hx fun k hk => h k (by simp [hk])
        have := h k (by simp)
        simp only [List.map_cons, List.sum_cons]; linarith
  exact absurd h4 (h6 _ hne h5).ne

/-- C31 (partly): with neither fixed, positive estimates are a stationary point of the likelihood; moreover each of them maximises the
likelihood when the other one is held fixed.  Missing: that it is a global maximum in both. -/
theorem mle_isMleAB_partial (hf : SoundFinder2 findroot2) (hn : 0 < n) (hk : ∀ k ∈ ks, 0 ≤ k ∧ k ≤ n) (hc : Matching ks c) (hp : ∀ v, pa ≠ .fixed v)
    (hp' : ∀ v, pb ≠ .fixed v) (ha : 0 < a) (hb : 0 < b) {m : ℤ}
    (h : mle findroot findroot2 (ints ks) (counts c) (some (n:ℤ)) pa pb = .ok (m, fin a, fin b)) :
    m = n ∧ IsStationary (fun a => nll (ints ks) n (fin a) (fin b) (counts c)) a ∧ IsStationary (fun b => nll (ints ks) n (fin a) (fin b) (counts c)) b ∧
    IsMle (fun a : ℝ => 0 < a) (fun a => nll (ints ks) n (fin a) (fin b) (counts c)) a ∧
    IsMle (fun b : ℝ => 0 < b) (fun b => nll (ints ks) n (fin a) (fin b) (counts c)) b := by
  rw [mle_freeAB hn hk hc hp hp'] at h
  obtain ⟨r, h1, h2⟩ := ok_of_bind h
  obtain ⟨e1, e2⟩ := Prod.mk.inj (Except.ok.inj h2)
  obtain ⟨e2, e3⟩ := Prod.mk.inj e2
  have hm : ∀ k ∈ meant ks c, 0 ≤ k ∧ k ≤ n := fun k hm => hk k (meant_mem hm)
  have h3 := hf _ _ _ h1
  rw [e2, e3, eqns_eval ha hb hk, zero_def] at h3
  obtain ⟨z1, z2⟩ := Prod.mk.inj (Except.ok.inj h3)
  have z1 := fin.inj z1
  have z2 : (((meant ks c).map fun k => (n:ℤ) - k).map (D n a · b)).sum = 0 := by
    rw [List.map_map]; exact fin.inj z2
  refine ⟨e1.symm, ⟨_, ?_, (hasDerivAt_sum ha hb hm).congr_deriv (by rw [z1, neg_zero])⟩, ⟨_, ?_, (hasDerivAt_sum hb ha (refl_mem hm)).congr_deriv (by rw [z2, neg_zero])⟩,
    isMle_of ha (fun t ht => nll_eval ht hb hk hc) fun t ht => min_of_zero hb hn hm ha ht z1,
    isMle_of hb (fun t ht => nll_eval ha ht hk hc) fun t ht => ?_⟩
  · filter_upwards [lt_mem_nhds ha] with t ht
    exact nll_eval ht hb hk hc
  · filter_upwards [lt_mem_nhds hb] with t ht
    rw [nll_eval ha ht hk hc, refl_sum hm]
  · rw [refl_sum hm, refl_sum hm]
    exact min_of_zero ha hn (refl_mem hm) hb ht z2

/-- Non-vacuity: the data 1, 0 with the counts 2, 1 mean the data 1, 1, 0. -/
example : Matching [1, 0] (some [2, 1]) ∧ (∀ k ∈ [(1:ℤ), 0], 0 ≤ k ∧ k ≤ (1:ℕ)) ∧ (∃ k ∈ meant [1, 0] (some [2, 1]), k ≠ 0) ∧
    (∃ k ∈ meant [1, 0] (some [2, 1]), k ≠ (1:ℕ)) ∧ (∃ f, SoundFinder f) ∧ ∃ f, SoundFinder2 f := by
  refine ⟨fun l h => by cases h; rfl, by simp, ⟨1, by simp [meant, replicated], by norm_num⟩, ⟨0, by simp [meant, replicated], by norm_num⟩, ?_, ?_⟩
  · obtain ⟨f, hf, -⟩ := exists_soundFinder; exact ⟨f, hf⟩
  · obtain ⟨f, hf, -⟩ := exists_soundFinder2; exact ⟨f, hf⟩

end Mpsci.betabinomial
