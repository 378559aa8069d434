import Verif.Lemmas.Fit.NegBinomial

/-! `negative_binomial.nll` and `negative_binomial.mle`. -/

namespace Mpsci.negative_binomial

open Classical Num Spec common

variable {r p : ℝ} {ks : List ℤ} {c : Option (List ℕ)} {findroot : (Num → M Num) → Num → M Num} {pr pp : Param} {allow : Bool}

/-- C29, C30: `nll` is minus the sum of `logpmf`, and data with counts mean the replicated data; for `r >= 1`. -/
theorem nll_spec (hr : 1 ≤ r) (h0 : 0 < p) (h1 : p < 1) :
    NllIsNegSumZ {k | 0 ≤ k} (logpmf · (fin r) (fin p)) (nll · (fin r) (fin p) none) ∧ CountsReplicate {k | 0 ≤ k} (nll · (fin r) (fin p) ·) :=
  nll_countsSpec (fun _ => logpmf_l hr h0 h1) fun _ hk _ hc => nll_eval hr h0 h1 hk hc

/-- C30 violated for `0 < r < 1`, which is accepted as valid: `nll` raises ValueError for all nonempty data. -/
theorem nll_small_r (hr : 0 < r) (hr1 : r < 1) (h0 : 0 ≤ p) (h1 : p ≤ 1) (hk : ∀ k ∈ ks, 0 ≤ k) (hn : ks ≠ []) :
    nll (ints ks) (fin r) (fin p) none = .error .valueError := by
  obtain ⟨k, ks, rfl⟩ := List.exists_cons_of_ne_nil hn
  obtain ⟨j, rfl⟩ := Int.eq_ofNat_of_zero_le (hk k (by simp))
  have e : validateCounts (ints ((j:ℤ) :: ks)) none true = .ok (some (1 :: List.replicate ks.length 1)) := by
    simp [validateCounts, ints, List.replicate_succ]
  have e2 := (pmf_small_r hr hr1 h0 h1 j).2
  have e3 : nllCounts (logpmf · (fin r) (fin p)) (ints ((j:ℤ) :: ks)) (some (1 :: List.replicate ks.length 1)) = .error .valueError := by
    simp only [nllCounts, Option.getD_some, ints, List.map_cons, List.zip_cons_cons, List.mapM_cons, intOf_ofInt, e2]
    rfl
  simp only [nll, validate_ok hr h0 h1, ok_bind, validateX_ok hk, e, e3]

/-- C29: unusable counts are rejected. -/
theorem nll_badCounts (hr : 0 < r) (h0 : 0 ≤ p) (h1 : p ≤ 1) : CountsRejects {k | 0 ≤ k} (nll · (fin r) (fin p) ·) := by
  intro ks c hk hc
  have h2 : validateCounts (ints ks) (some (c.map fin)) true = .error .valueError := validateCounts_bad (by simpa [ints] using hc) _
  simp only [nll, validate_ok hr h0 h1, ok_bind, validateX_ok hk, h2]
  rfl

/-- C30: data that are not nonnegative integers are rejected. -/
theorem nll_rejects (hr : 0 < r) (h0 : 0 ≤ p) (h1 : p ≤ 1) (c : Option (List Num)) :
    NllRejects {x | ∃ k : ℕ, x = k} (nll · (fin r) (fin p) c) := by
  rintro xs ⟨x, hx, hn⟩
  have h2 : validateX (xs.map fin) = .error .valueError := validateX_bad ⟨x, hx, fun k hk => hn ⟨k, hk⟩⟩
  simp only [nll, validate_ok hr h0 h1, ok_bind, h2]
  rfl

/-- C30: invalid parameters are rejected. -/
theorem nll_invalid (h : r ≤ 0 ∨ p < 0 ∨ 1 < p) (x : List Num) (c : Option (List Num)) : nll x (fin r) (fin p) c = .error .valueError := by
  simp only [nll, validate_bad h]; rfl

theorem validate_int {n : ℕ} (hn : 0 < n) (h0 : 0 ≤ p) (h1 : p ≤ 1) : validateParams (fin n) (fin p) allow = .ok (fin n, fin p) := by
  have h2 : ¬ (n:ℝ) ≤ 0 := not_le.2 (by exact_mod_cast hn)
  have h3 : py.int (fin (n:ℝ)) = .ok (n:ℤ) := by exact_mod_cast py.int_cast (n:ℤ)
  cases allow <;> simp [validateParams, hn.ne', h0, h1, h3]

theorem mean_bounds (hk : ∀ k ∈ ks, 0 ≤ k) (h0 : ∃ k ∈ meant ks c, k ≠ 0) : 0 < sampleMean ((meant ks c).map fun k : ℤ => (k:ℝ)) := by
  obtain ⟨k0, hk0, h0⟩ := h0
  have hm0 : (k0:ℝ) ∈ (meant ks c).map fun k : ℤ => (k:ℝ) := List.mem_map_of_mem hk0
  have hx : ∀ x ∈ (meant ks c).map fun k : ℤ => (k:ℝ), 0 ≤ x := fun x hx => by
    obtain ⟨k, hm, rfl⟩ := List.mem_map.1 hx
    exact_mod_cast hk k (meant_mem hm)
  have := sampleMean_pos (φ := id) hx ⟨_, hm0, lt_of_le_of_ne (hx _ hm0) (by show (0:ℝ) ≠ (k0:ℝ); exact_mod_cast h0.symm)⟩
  simpa using this

theorem mle_unfold (hk : ∀ k ∈ ks, 0 ≤ k) (hc : Matching ks c) : mle findroot (ints ks) (counts c) pr pp allow = match pr with
  | .fixed r => mleFixedR (ints ks) (counts c) r pp allow
  | r =>
    match pp with
    | .fixed p => mleFixedP findroot (ints ks) (counts c) r p allow
    | _ => mleFree findroot (ints ks) (counts c) r allow := by
  rw [mle]
  simp only [validateX_ok hk, ok_bind, validateCounts_match hc]
  rfl

/-- The likelihood is largest at the ratio of the mean. -/
theorem best_p {m q : ℝ} (hr : 0 < r) (hm : 0 < m) (hq0 : 0 < q) (hq1 : q < 1) :
    m * Real.log q + r * Real.log (1 - q) ≤ m * Real.log (m / (r + m)) + r * Real.log (1 - m / (r + m)) := by
  have hs : 0 < r + m := by linarith
  have h0 : 0 < m / (r + m) := div_pos hm hs
  have e : 1 - m / (r + m) = r / (r + m) := by field_simp; ring
  have h1 : 0 < r / (r + m) := div_pos hr hs
  have h5 : 0 < 1 - q := by linarith
  have h2 := Real.log_le_sub_one_of_pos (div_pos hq0 h0)
  have h3 := Real.log_le_sub_one_of_pos (div_pos h5 h1)
  rw [Real.log_div hq0.ne' h0.ne'] at h2
  rw [Real.log_div h5.ne' h1.ne'] at h3
  have h6 := mul_le_mul_of_nonneg_left h2 hm.le
  have h7 := mul_le_mul_of_nonneg_left h3 hr.le
  have e1 : m * (q / (m / (r + m)) - 1) = (r + m) * q - m := by field_simp
  have e2 : r * ((1 - q) / (r / (r + m)) - 1) = (r + m) * (1 - q) - r := by field_simp
  rw [e1] at h6
  rw [e2] at h7
  rw [e]; linarith

theorem isMle_p (hr : 1 ≤ r) (hk : ∀ k ∈ ks, 0 ≤ k) (hc : Matching ks c) (h0 : ∃ k ∈ meant ks c, k ≠ 0) {m : ℝ}
    (hm : m = sampleMean ((meant ks c).map fun k : ℤ => (k:ℝ))) :
    IsMle (fun p : ℝ => 0 < p ∧ p < 1) (fun p => nll (ints ks) (fin r) (fin p) (counts c)) (m / (r + m)) := by
  have hm0 : 0 < m := hm ▸ mean_bounds hk h0
  obtain ⟨k0, hk0, -⟩ := h0
  have hn : meant ks c ≠ [] := List.ne_nil_of_mem hk0
  have hs : 0 < r + m := by linarith
  refine isMle_of ⟨div_pos hm0 hs, (div_lt_one hs).2 (by linarith)⟩ (fun p h => nll_LL hr h.1 h.2 hk hc) fun p hp => ?_
  have hl : (0:ℝ) < (meant ks c).length := by exact_mod_cast List.length_pos_iff.2 hn
  rw [LL_p hn, LL_p hn, ← hm]
  have := mul_le_mul_of_nonneg_left (best_p (r := r) (by linarith) hm0 hp.1 hp.2) hl.le
  linarith

/-- C31: with `r >= 1` fixed, unless all data are 0, the estimate of `p` maximises the likelihood; with or without counts. -/
theorem mle_fixedR (hr : 1 ≤ r) (hk : ∀ k ∈ ks, 0 ≤ k) (hc : Matching ks c) (h0 : ∃ k ∈ meant ks c, k ≠ 0) (hp : ∀ v, pp ≠ .fixed v) :
    ∃ phat : ℝ, mle findroot (ints ks) (counts c) (.fixed (fin r)) pp = .ok (fin r, fin phat) ∧
    IsMle (fun p : ℝ => 0 < p ∧ p < 1) (fun p => nll (ints ks) (fin r) (fin p) (counts c)) phat := by
  have hr0 : 0 < r := by linarith
  set m := sampleMean ((meant ks c).map fun k : ℤ => (k:ℝ)) with hm
  have hm0 : 0 < m := mean_bounds hk h0
  refine ⟨m / (r + m), ?_, isMle_p hr hk hc h0 hm⟩
  obtain ⟨k0, hk0, -⟩ := h0
  have hn : meant ks c ≠ [] := List.ne_nil_of_mem hk0
  rw [mle_unfold hk hc]
  cases pp with
  | fixed v => exact absurd rfl (hp v)
  | none | initial v =>
    simp only [mleFixedR, validate_ok hr0 (show (0:ℝ) ≤ 1 / 2 by norm_num) (by norm_num), ok_bind, mean_ints hc hn, ← hm, fin_add,
      fin_div _ (show r + m ≠ 0 by linarith), pure_eq_ok]

/-- C31: with `r >= 1` fixed and all data 0, the estimate is `p = 0`, which maximises the likelihood. -/
theorem mle_zero (hr : 1 ≤ r) (n : ℕ) : mle findroot (ints (List.replicate (n + 1) 0)) none (.fixed (fin r)) .none = .ok (fin r, fin 0) ∧
    IsMle (fun p : ℝ => 0 ≤ p ∧ p < 1) (fun p => nll (ints (List.replicate (n + 1) 0)) (fin r) (fin p) none) 0 := by
  have hr0 : 0 < r := by linarith
  have hk : ∀ k ∈ List.replicate (n + 1) (0:ℤ), 0 ≤ k := by simp
  have hc : Matching (List.replicate (n + 1) (0:ℤ)) none := fun _ h => by cases h
  constructor
  · have h1 : stats.mean (ints (List.replicate (n + 1) (0:ℤ))) (counts none) = .ok (fin 0) := by
      rw [mean_ints hc (by simp [meant, List.replicate_succ])]
      simp [meant, sampleMean]
    refine (mle_unfold (c := none) hk hc).trans ?_
    simp only [mleFixedR, validate_ok hr0 (show (0:ℝ) ≤ 1 / 2 by norm_num) (by norm_num), ok_bind, h1, fin_add, add_zero,
      fin_div _ hr0.ne', zero_div, pure_eq_ok]
  · have hG := (Real.Gamma_pos_of_pos hr0).ne'
    have hL : ∀ p : ℝ, 0 ≤ p ∧ p < 1 → nll (ints (List.replicate (n + 1) (0:ℤ))) (fin r) (fin p) none =
        .ok (fin (-(((n:ℝ) + 1) * (r * Real.log (1 - p))))) := fun p hp => by
      have h2 : (0:ℝ) < 1 - p := by linarith [hp.2]
      have e : ∀ k ∈ List.replicate (n + 1) (0:ℤ), logpmf k (fin r) (fin p) = .ok (fin (r * Real.log (1 - p))) := fun k hk => by
        obtain rfl : k = 0 := by simpa using hk
        have h3 := logpmf_eval hr hp.1 hp.2 0
        have h4 : N r p 0 = (1 - p) ^ r := by simp [N, hG]
        rw [h4, if_neg (Real.rpow_pos_of_pos h2 r).ne', Real.log_rpow h2] at h3
        exact h3
      have h2 := nllCounts_meant (lp := (logpmf · (fin r) (fin p))) (l := fun _ => r * Real.log (1 - p)) e hc
      simp only [nll, validate_ok hr0 hp.1 hp.2.le, ok_bind, validateX_ok hk]
      refine h2.trans ?_
      simp [meant]
    refine isMle_of ⟨le_rfl, one_pos⟩ hL fun p hp => ?_
    have : Real.log (1 - p) ≤ 0 := Real.log_nonpos (by linarith [hp.2]) (by linarith [hp.1])
    have h3 : ((n:ℝ) + 1) * (r * Real.log (1 - p)) ≤ 0 :=
      mul_nonpos_of_nonneg_of_nonpos (by positivity) (mul_nonpos_of_nonneg_of_nonpos hr0.le this)
    simp only [sub_zero, Real.log_one, mul_zero, neg_zero]; linarith

/-- C31: with `p` fixed and real `r` allowed, when `mle` returns an estimate of `r` that is at least 1, it maximises the likelihood
over `r >= 1` (below 1, `nll` raises: `nll_small_r`).  `findroot` returns only positive roots.  Missing: that the secant method finds a
root. -/
theorem mle_fixedP_partial (hf : SoundFinder findroot) (hlow : ∀ f x0 r, findroot f x0 = .ok r → ∃ t : ℝ, r = fin t ∧ 0 < t) (h0 : 0 < p)
    (h1 : p < 1) (hk : ∀ k ∈ ks, 0 ≤ k) (hc : Matching ks c) (hm : meant ks c ≠ []) (hp : ∀ v, pr ≠ .fixed v) {R p' : Num}
    (h : mle findroot (ints ks) (counts c) pr (.fixed (fin p)) = .ok (R, p')) : p' = fin p ∧ ∃ t : ℝ, R = fin t ∧ (1 ≤ t →
    IsMle (fun r : ℝ => 1 ≤ r) (fun r => nll (ints ks) (fin r) (fin p) (counts c)) t) := by
  have h2 : mle findroot (ints ks) (counts c) pr (.fixed (fin p)) = mleFixedP findroot (ints ks) (counts c) pr (fin p) true := by
    rw [mle_unfold hk hc]
    cases pr with
    | fixed v => exact absurd rfl (hp v)
    | none | initial v => rfl
  rw [h2] at h
  simp only [mleFixedP, one_def, validate_ok one_pos h0.le h1.le, ok_bind, mean_ints hc hm] at h
  obtain ⟨R', hR, h⟩ := ok_of_bind h
  obtain ⟨t, rfl, ht⟩ := hlow _ _ _ hR
  have hG := hf _ _ _ hR
  rw [eqnFixed_eval ht h1 hk hc hm, zero_def] at hG
  have hlen : (0:ℝ) < (meant ks c).length := by exact_mod_cast List.length_pos_iff.2 hm
  have hG : G p (meant ks c) t = 0 := (div_eq_zero_iff.1 (fin.inj (Except.ok.inj hG))).resolve_right hlen.ne'
  simp only [accept, if_true, pure_eq_ok, ok_bind] at h
  obtain ⟨rfl, rfl⟩ := Prod.mk.inj (Except.ok.inj h)
  have hk' : ∀ k ∈ meant ks c, 0 ≤ k := fun k hm => hk k (meant_mem hm)
  refine ⟨rfl, t, rfl, fun ht1 => isMle_of ht1 (fun r hr => nll_LL hr h0 h1 hk hc) fun r hr => neg_le_neg ?_⟩
  rcases le_total r t with h3 | h3
  · exact LL_le_left hk' (by linarith) hG.ge h3 le_rfl
  · exact LL_le_right hk' ht hG.le le_rfl h3

/-- C31: with `p` fixed and only integers allowed for `r`, the estimate that is returned is an integer and maximises the likelihood
over the positive integers.  Assumptions as for `mle_fixedP_partial`. -/
theorem mle_fixedP_int_partial (hf : SoundFinder findroot) (hlow : ∀ f x0 r, findroot f x0 = .ok r → ∃ t : ℝ, r = fin t ∧ 0 < t) (h0 : 0 < p)
    (h1 : p < 1) (hk : ∀ k ∈ ks, 0 ≤ k) (hc : Matching ks c) (hm : meant ks c ≠ []) (hp : ∀ v, pr ≠ .fixed v) {R p' : Num}
    (h : mle findroot (ints ks) (counts c) pr (.fixed (fin p)) false = .ok (R, p')) : p' = fin p ∧ ∃ n : ℕ, R = fin n ∧
    IsMle (fun n : ℕ => 1 ≤ n) (fun n => nll (ints ks) (fin n) (fin p) (counts c)) n := by
  have h2 : mle findroot (ints ks) (counts c) pr (.fixed (fin p)) false = mleFixedP findroot (ints ks) (counts c) pr (fin p) false := by
    rw [mle_unfold hk hc]
    cases pr with
    | fixed v => exact absurd rfl (hp v)
    | none | initial v => rfl
  rw [h2] at h
  simp only [mleFixedP, one_def, validate_ok one_pos h0.le h1.le, ok_bind, mean_ints hc hm] at h
  obtain ⟨R', hR, h⟩ := ok_of_bind h
  obtain ⟨t, rfl, ht⟩ := hlow _ _ _ hR
  have hG := hf _ _ _ hR
  rw [eqnFixed_eval ht h1 hk hc hm, zero_def] at hG
  have hlen : (0:ℝ) < (meant ks c).length := by exact_mod_cast List.length_pos_iff.2 hm
  have hG : G p (meant ks c) t = 0 := (div_eq_zero_iff.1 (fin.inj (Except.ok.inj hG))).resolve_right hlen.ne'
  have hk' : ∀ k ∈ meant ks c, 0 ≤ k := fun k hm => hk k (meant_mem hm)
  have hL : ∀ n : ℕ, 1 ≤ n → nll (ints ks) (fin n) (fin p) (counts c) = .ok (fin (-LL p (meant ks c) n)) := fun n hn =>
    nll_LL (by exact_mod_cast hn) h0 h1 hk hc
  -- the two neighbours
  have hcast : ((⌊t⌋₊ : ℕ) : ℝ) = ((⌊t⌋ : ℤ) : ℝ) := natCast_floor_eq_intCast_floor ht.le
  have hleft : ∀ n : ℕ, 1 ≤ n → (n:ℝ) ≤ t → LL p (meant ks c) n ≤ LL p (meant ks c) ⌊t⌋₊ := fun n hn hnt =>
    LL_le_left hk' (by exact_mod_cast hn) hG.ge (by exact_mod_cast Nat.le_floor hnt) (Nat.floor_le ht.le)
  have hright : ∀ n : ℕ, t ≤ n → LL p (meant ks c) n ≤ LL p (meant ks c) ⌈t⌉₊ := fun n hnt =>
    LL_le_right hk' ht hG.le (Nat.le_ceil t) (by exact_mod_cast Nat.ceil_le.2 hnt)
  simp only [accept, Bool.false_eq_true, if_false, py.int, if_pos ht.le, ok_bind, pure_eq_ok, ofInt_def, fin_eq, decide_eq_true_eq] at h
  split_ifs at h with h5
  · obtain ⟨rfl, rfl⟩ := Prod.mk.inj (Except.ok.inj h)
    have h6 : t = ⌊t⌋₊ := by rw [hcast]; exact h5
    have h7 : 1 ≤ ⌊t⌋₊ := by
      have : (0:ℝ) < ⌊t⌋₊ := by rw [← h6]; exact ht
      exact_mod_cast this
    refine ⟨rfl, ⌊t⌋₊, by rw [← h6], isMle_of h7 hL fun n hn => neg_le_neg ?_⟩
    rcases le_total (n:ℝ) t with h8 | h8
    · exact hleft n hn h8
    · rw [← h6]; exact LL_le_right hk' ht hG.le le_rfl h8
  · have hc2 : ((⌈t⌉₊ : ℕ) : ℝ) = ((⌈t⌉ : ℤ) : ℝ) := natCast_ceil_eq_intCast_ceil ht.le
    simp only [mp.floor_fin, mp.ceil_fin] at h
    rw [← hcast, ← hc2] at h
    have hc1 : 1 ≤ ⌈t⌉₊ := Nat.one_le_ceil_iff.2 ht
    rcases Nat.eq_zero_or_pos ⌊t⌋₊ with h6 | h6
    · rw [h6] at h
      have : nll (ints ks) (fin ((0:ℕ):ℝ)) (fin p) (counts c) = .error .valueError := nll_invalid (Or.inl (by simp)) _ _
      rw [this] at h
      obtain ⟨_, h7, -⟩ := ok_of_bind h
      cases h7
    · rw [hL _ h6, hL _ hc1] at h
      simp only [ok_bind, fin_le] at h
      split_ifs at h with h7
      · obtain ⟨rfl, rfl⟩ := Prod.mk.inj (Except.ok.inj h)
        refine ⟨rfl, _, rfl, isMle_of h6 hL fun n hn => ?_⟩
        rcases le_total (n:ℝ) t with h8 | h8
        · exact neg_le_neg (hleft n hn h8)
        · exact h7.trans (neg_le_neg (hright n h8))
      · obtain ⟨rfl, rfl⟩ := Prod.mk.inj (Except.ok.inj h)
        refine ⟨rfl, _, rfl, isMle_of hc1 hL fun n hn => ?_⟩
        rcases le_total (n:ℝ) t with h8 | h8
        · exact (not_le.1 h7).le.trans (neg_le_neg (hleft n hn h8))
        · exact neg_le_neg (hright n h8)

/-- C31: with nothing fixed and real `r` allowed, when `mle` returns an `r` greater than 1, the estimate of `p` maximises the likelihood for this
`r`, and the likelihood is stationary in `r`.  `findroot` returns only positive roots.  Missing: that the estimate is a global
maximum, and that the secant method finds a root. -/
theorem mle_free_partial (hf : SoundFinder findroot) (hlow : ∀ f x0 r, findroot f x0 = .ok r → ∃ t : ℝ, r = fin t ∧ 0 < t)
    (hk : ∀ k ∈ ks, 0 ≤ k) (hc : Matching ks c) (h0 : ∃ k ∈ meant ks c, k ≠ 0) (hp : ∀ v, pr ≠ .fixed v) (hq : ∀ v, pp ≠ .fixed v) {R P : Num}
    (h : mle findroot (ints ks) (counts c) pr pp = .ok (R, P)) : ∃ t q : ℝ, R = fin t ∧ P = fin q ∧ (1 < t →
      IsMle (fun p : ℝ => 0 < p ∧ p < 1) (fun p => nll (ints ks) (fin t) (fin p) (counts c)) q ∧
      IsStationary (fun r => nll (ints ks) (fin r) (fin q) (counts c)) t) := by
  have hm0 := mean_bounds hk h0
  have hm : meant ks c ≠ [] := by obtain ⟨k, hk, -⟩ := h0; exact List.ne_nil_of_mem hk
  have h2 : mle findroot (ints ks) (counts c) pr pp = mleFree findroot (ints ks) (counts c) pr true := by
    rw [mle_unfold hk hc]
    cases pr with
    | fixed v => exact absurd rfl (hp v)
    | none | initial v =>
      cases pp with
      | fixed v => exact absurd rfl (hq v)
      | none | initial v => rfl
  rw [h2] at h
  set m := sampleMean ((meant ks c).map fun k : ℤ => (k:ℝ)) with hmdef
  simp only [mleFree, mean_ints hc hm, ← hmdef, ok_bind] at h
  obtain ⟨R', hR, h⟩ := ok_of_bind h
  obtain ⟨t, rfl, ht⟩ := hlow _ _ _ hR
  have hG := hf _ _ _ hR
  rw [eqnFree_eval ht hm0.le hk hc hm, zero_def] at hG
  have hlen : (0:ℝ) < (meant ks c).length := by exact_mod_cast List.length_pos_iff.2 hm
  have hG : G (m / (t + m)) (meant ks c) t = 0 := (div_eq_zero_iff.1 (fin.inj (Except.ok.inj hG))).resolve_right hlen.ne'
  have hs : 0 < t + m := by linarith
  simp only [accept, if_true, pure_eq_ok, fin_add, fin_div _ hs.ne', ok_bind] at h
  obtain ⟨rfl, rfl⟩ := Prod.mk.inj (Except.ok.inj h)
  refine ⟨t, _, rfl, rfl, fun ht1 => ⟨isMle_p ht1.le hk hc h0 hmdef, fun r => -LL (m / (t + m)) (meant ks c) r, ?_, ?_⟩⟩
  · filter_upwards [lt_mem_nhds ht1] with r hr
    exact nll_LL hr.le (div_pos hm0 hs) ((div_lt_one hs).2 (by linarith)) hk hc
  · have := (hasDerivAt_LL (p := m / (t + m)) (xs := meant ks c) (fun k hm => hk k (meant_mem hm)) ht).neg
    rw [hG, neg_zero] at this
    exact this

/-- C31: with both parameters fixed they are checked and returned; invalid fixed parameters, data or counts raise ValueError. -/
theorem mle_errors (hk : ∀ k ∈ ks, 0 ≤ k) (hc : Matching ks c) :
    (0 < r → 0 ≤ p → p ≤ 1 → mle findroot (ints ks) (counts c) (.fixed (fin r)) (.fixed (fin p)) = .ok (fin r, fin p)) ∧
    (r ≤ 0 → mle findroot (ints ks) (counts c) (.fixed (fin r)) pp = .error .valueError) ∧
    (p < 0 ∨ 1 < p → ∀ pr, mle findroot (ints ks) (counts c) pr (.fixed (fin p)) = .error .valueError) ∧
    (∀ xs : List ℝ, (∃ x ∈ xs, ∀ k : ℕ, x ≠ k) → ∀ c, mle findroot (xs.map fin) c pr pp = .error .valueError) ∧
    (∀ c : List ℝ, (c.length ≠ ks.length ∨ ∃ v ∈ c, ∀ n : ℕ, v ≠ n) → mle findroot (ints ks) (some (c.map fin)) pr pp = .error .valueError) := by
  refine ⟨fun hr h0 h1 => ?_, fun hr => ?_, fun h pr => ?_, fun xs h c => ?_, fun c h => ?_⟩
  · rw [mle_unfold hk hc]
    simp only [mleFixedR, validate_ok hr h0 h1]
  · rw [mle_unfold hk hc]
    cases pp with
    | fixed v => simp [mleFixedR, validateParams, hr]
    | none | initial v => simp [mleFixedR, validateParams, hr]
  · rw [mle_unfold hk hc]
    cases pr with
    | fixed v =>
      have h2 : ¬ (0 ≤ p ∧ p ≤ 1) := by rcases h with h | h <;> simp [h]
      simp only [mleFixedR, validateParams, zero_def, one_def, fin_le, h2, not_false_eq_true, if_true]
      split_ifs <;> first | rfl | simp_all
    | none | initial v => simp [mleFixedP, one_def, validate_bad (r := 1) (Or.inr h)]
  · rw [mle, validateX_bad h]; rfl
  · have h2 : validateCounts (ints ks) (some (c.map fin)) false = .error .valueError := validateCounts_bad (by simpa [ints] using h) _
    rw [mle, validateX_ok hk, ok_bind, h2]; rfl

/-- Non-vacuity: data with counts. -/
example : ∃ phat : ℝ, mle (fun _ x => .ok x) (ints [0, 1, 4]) (counts (some [2, 0, 1])) (.fixed (fin 2)) .none = .ok (fin 2, fin phat) ∧
    IsMle (fun p : ℝ => 0 < p ∧ p < 1) (fun p => nll (ints [0, 1, 4]) (fin 2) (fin p) (counts (some [2, 0, 1]))) phat :=
  mle_fixedR (by norm_num) (by simp) (fun l h => by cases h; rfl) ⟨4, by simp [meant, replicated], by norm_num⟩ (by simp)

end Mpsci.negative_binomial
