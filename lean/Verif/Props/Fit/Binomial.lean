import Verif.Lemmas.Fit.Binomial
import Mathlib.Analysis.Complex.ExponentialBounds

/-! `binomial.nll` and `binomial.mle`. -/

namespace Mpsci.binomial

open Classical Num Spec common

variable {p : ℝ} {n : ℕ} {ks : List ℤ} {c : Option (List ℕ)} {findroot : (Num → M Num) → Num → M Num} {pn pp : Param}

/-- C29, C30: `nll` is minus the sum of `logpmf`, and data with counts mean the replicated data. -/
theorem nll_spec (h0 : 0 < p) (h1 : p < 1) : NllIsNegSumZ {k | 0 ≤ k ∧ k ≤ n} (logpmf · n (fin p)) (nll · n (fin p) none) ∧
    CountsReplicate {k | 0 ≤ k ∧ k ≤ n} (nll · n (fin p) ·) :=
  nll_countsSpec (fun _ => logpmf_l h0 h1) fun _ hk _ hc => nll_eval h0 h1 hk hc

/-- C29: unusable counts are rejected. -/
theorem nll_badCounts (h0 : 0 ≤ p) (h1 : p ≤ 1) : CountsRejects {k | 0 ≤ k ∧ k ≤ n} (nll · n (fin p) ·) := by
  intro ks c hk hc
  have h2 : validateCounts (ints ks) (some (c.map fin)) true = .error .valueError := validateCounts_bad (by simpa [ints] using hc) _
  simp only [nll, validate_ok n h0 h1, ok_bind, zero_def, bounds hk, if_neg (not_not.2 (allInt ks)), h2]
  rfl

/-- C30: data that are not integers from 0 to n are rejected. -/
theorem nll_rejects (h0 : 0 ≤ p) (h1 : p ≤ 1) (c : Option (List Num)) : NllRejects {x | ∃ k : ℕ, k ≤ n ∧ x = k} (nll · n (fin p) c) := by
  rintro xs ⟨x, hx, hn⟩
  by_cases hb : badLow (xs.map fin) (some (fin 0)) false
  · have h2 : validateXBounds (xs.map fin) (some (fin 0)) (some (ofInt n)) false false = .error .valueError := validateXBounds_low hb
    simp only [nll, validate_ok n h0 h1, ok_bind, zero_def, h2]
    rfl
  by_cases hb' : badHigh (xs.map fin) (some (ofInt n)) false
  · have h2 : validateXBounds (xs.map fin) (some (fin 0)) (some (ofInt n)) false false = .error .valueError := validateXBounds_high hb'
    simp only [nll, validate_ok n h0 h1, ok_bind, zero_def, h2]
    rfl
  · have h2 : validateXBounds (xs.map fin) (some (fin 0)) (some (ofInt n)) false false = .ok (xs.map fin) := validateXBounds_ok hb hb'
    rw [badLow_weak] at hb
    rw [ofInt_natCast, badHigh_weak] at hb'
    push Not at hb hb'
    have h3 : ¬ ∀ t ∈ xs.map fin, mp.isint t := by
      intro h3
      obtain ⟨k, h4⟩ := h3 (fin x) (List.mem_map_of_mem hx)
      rw [ofInt_def] at h4
      obtain rfl := fin.inj h4
      have h5 : (0:ℤ) ≤ k := by exact_mod_cast hb _ hx
      have h6 : k ≤ (n:ℤ) := by exact_mod_cast hb' _ hx
      refine hn ⟨k.toNat, by omega, ?_⟩
      have : ((k.toNat : ℤ) : ℝ) = (k:ℝ) := by rw [Int.toNat_of_nonneg h5]
      rw [← this, Int.cast_natCast]
    simp only [nll, validate_ok n h0 h1, ok_bind, zero_def, h2, h3, not_false_eq_true, if_true]
    rfl

/-- C30 -/
theorem nll_invalid {n : ℤ} (h : n < 0 ∨ p < 0 ∨ 1 < p) (xs : List Num) (c : Option (List Num)) : nll xs n (fin p) c = .error .valueError := by
  simp only [nll, validate_bad h]; rfl

theorem meanBounds (hk : ∀ k ∈ ks, 0 ≤ k ∧ k ≤ n) (h0 : ∃ k ∈ meant ks c, k ≠ 0) (h1 : ∃ k ∈ meant ks c, k ≠ n) :
    0 < sampleMean ((meant ks c).map fun k : ℤ => (k:ℝ)) ∧ sampleMean ((meant ks c).map fun k : ℤ => (k:ℝ)) < n := by
  set xs := (meant ks c).map fun k : ℤ => (k:ℝ) with hxs
  have hx : ∀ x ∈ xs, 0 ≤ x ∧ x ≤ n := fun x hx => by
    obtain ⟨k, hm, rfl⟩ := List.mem_map.1 hx
    have := hk k (meant_mem hm)
    exact ⟨by exact_mod_cast this.1, by exact_mod_cast this.2⟩
  obtain ⟨k0, hk0, h0⟩ := h0
  obtain ⟨k1, hk1, h1⟩ := h1
  have hm0 : (k0:ℝ) ∈ xs := List.mem_map_of_mem hk0
  have hm1 : (k1:ℝ) ∈ xs := List.mem_map_of_mem hk1
  constructor
  · have := sampleMean_pos (φ := id) (fun x hm => (hx x hm).1) ⟨_, hm0, lt_of_le_of_ne (hx _ hm0).1 (by show (0:ℝ) ≠ (k0:ℝ); exact_mod_cast h0.symm)⟩
    simpa using this
  · have := sampleMean_pos (φ := fun x => (n:ℝ) + -1 * x) (fun x hm => by have := (hx x hm).2; linarith)
      ⟨_, hm1, by have : (k1:ℝ) < n := lt_of_le_of_ne (hx _ hm1).2 (by exact_mod_cast h1); linarith⟩
    rw [sampleMean_affine (List.ne_nil_of_mem hm1) (fun x => x), List.map_id'] at this
    linarith

theorem sum_l (h0 : 0 < p) (h1 : p < 1) (hk : ∀ k ∈ ks, 0 ≤ k ∧ k ≤ n) (hn : meant ks c ≠ []) :
    ((meant ks c).map (l n p)).sum = ((meant ks c).map fun k : ℤ => Real.log (n.choose k.toNat)).sum +
      (meant ks c).length * (sampleMean ((meant ks c).map fun k : ℤ => (k:ℝ)) * Real.log p +
        (n - sampleMean ((meant ks c).map fun k : ℤ => (k:ℝ))) * Real.log (1 - p)) := by
  set xs := (meant ks c).map fun k : ℤ => (k:ℝ) with hxs
  have e : ∀ k ∈ meant ks c, l n p k = Real.log (n.choose k.toNat) +
      (n * Real.log (1 - p) + (Real.log p - Real.log (1 - p)) * (k:ℝ)) := fun k hm => by
    obtain ⟨h2, h3⟩ := hk k (meant_mem hm)
    obtain ⟨j, rfl⟩ := Int.eq_ofNat_of_zero_le h2
    have hj : j ≤ n := by exact_mod_cast h3
    have h4 : 0 < 1 - p := by linarith
    have h5 : (0:ℝ) < n.choose j := by exact_mod_cast Nat.choose_pos hj
    simp only [l, B, Int.toNat_natCast, Int.cast_natCast]
    rw [Real.log_mul (by positivity) (by positivity), Real.log_mul (by positivity) (by positivity), Real.log_pow, Real.log_pow,
      Nat.cast_sub hj]
    ring
  have h2 : ((meant ks c).map fun k : ℤ => (n * Real.log (1 - p) + (Real.log p - Real.log (1 - p)) * (k:ℝ))).sum =
      xs.length * (n * Real.log (1 - p)) + (Real.log p - Real.log (1 - p)) * xs.sum := by
    have h3 := sum_map_affine (c := n * Real.log (1 - p)) (d := Real.log p - Real.log (1 - p)) xs id
    rw [hxs, List.map_map, List.map_id] at h3
    exact h3
  have hx : xs ≠ [] := by simpa [hxs] using hn
  have h5 : xs.sum = xs.length * sampleMean xs := by
    rw [sampleMean]; field_simp [(length_pos hx).ne']
  rw [List.map_congr_left e, List.sum_map_add, h2, h5, hxs, List.length_map]
  ring

/-- C31: with `n` fixed, unless all data are 0 or all are `n`, the estimate of `p` maximises the likelihood; with or without
counts. -/
theorem mle_fixedN (hk : ∀ k ∈ ks, 0 ≤ k ∧ k ≤ n) (hc : Matching ks c) (h0 : ∃ k ∈ meant ks c, k ≠ 0) (h1 : ∃ k ∈ meant ks c, k ≠ n)
    (hp : ∀ v, pp ≠ .fixed v) : ∃ phat : ℝ, mle findroot (ints ks) (counts c) (.fixed (ofInt n)) pp = .ok ((n : ℤ), fin phat) ∧
    IsMle (fun p : ℝ => 0 < p ∧ p < 1) (fun p => nll (ints ks) n (fin p) (counts c)) phat := by
  obtain ⟨hm0, hm1⟩ := meanBounds hk h0 h1
  obtain ⟨k0, hk0, -⟩ := h0
  have hn : meant ks c ≠ [] := List.ne_nil_of_mem hk0
  obtain ⟨j, hj, hmax, hj'⟩ := max_ints (List.ne_nil_of_mem (meant_mem hk0))
  have hN : (0:ℝ) < n := hm0.trans hm1
  set m := sampleMean ((meant ks c).map fun k : ℤ => (k:ℝ)) with hm
  have hq : 0 < m / n ∧ m / n < 1 := ⟨div_pos hm0 hN, (div_lt_one hN).2 hm1⟩
  refine ⟨m / n, ?_, isMle_of hq (fun p h => nll_eval h.1 h.2 hk hc) fun p hp => ?_⟩
  · have h2 : mle findroot (ints ks) (counts c) (.fixed (ofInt n)) pp = mleFixedN (ints ks) (counts c) (ofInt j) (ofInt n) pp := by
      rw [mle_unfold (fun k hm => (hk k hm).1) hc hj']
    have h3 : ¬ ofInt j > ofInt (n : ℤ) := by
      rw [ofInt_def, ofInt_def, gt_iff, fin_lt, not_lt]; exact_mod_cast (hk j hj).2
    have h4 : validateNpNum (ofInt n) (fin (1 / 2)) = .ok (ofInt n, fin (1 / 2)) := by
      have h5 : ¬ ofInt (n : ℤ) < 0 := by rw [ofInt_def, zero_def, fin_lt, not_lt]; exact_mod_cast hN.le
      have h6 : ofInt (n : ℤ) =. ofInt (n : ℤ) := by simp [ofInt_def]
      simp only [validateNpNum, validateP_ok (show (0:ℝ) ≤ 1 / 2 by norm_num) (by norm_num), ok_bind, h5, if_false, int_ofInt, h6,
        not_true, pure_eq_ok]
    have h5 : fin m /. ofInt (n : ℤ) = .ok (fin (m / n)) := by rw [ofInt_natCast, fin_div _ hN.ne']
    rw [h2]
    cases pp with
    | fixed v => exact absurd rfl (hp v)
    | none | initial v =>
      simp only [mleFixedN, h3, if_false, h4, ok_bind, mean_ints hc hn, ← hm, h5, int_ofInt, pure_eq_ok]
  · have hl : (0:ℝ) < (meant ks c).length := by exact_mod_cast List.length_pos_iff.2 hn
    rw [sum_l hq.1 hq.2 hk hn, sum_l hp.1 hp.2 hk hn, ← hm]
    have h2 := Real.log_le_sub_one_of_pos (div_pos hp.1 hq.1)
    have h4 : 0 < 1 - m / n := by linarith [hq.2]
    have h5 : 0 < 1 - p := by linarith [hp.2]
    have h3 := Real.log_le_sub_one_of_pos (div_pos h5 h4)
    rw [Real.log_div hp.1.ne' hq.1.ne'] at h2
    rw [Real.log_div h5.ne' h4.ne'] at h3
    have h6 := mul_le_mul_of_nonneg_left h2 hm0.le
    have h7 := mul_le_mul_of_nonneg_left h3 (sub_nonneg.2 hm1.le)
    have e1 : m * (p / (m / n) - 1) = n * p - m := by field_simp
    have h8 : (n:ℝ) - m ≠ 0 := by linarith
    have e2 : (n - m) * ((1 - p) / (1 - m / n) - 1) = n * (1 - p) - (n - m) := by
      rw [show 1 - m / (n:ℝ) = (n - m) / n by field_simp]; field_simp
    rw [e1] at h6
    rw [e2] at h7
    have h9 : m * Real.log p + (n - m) * Real.log (1 - p) ≤ m * Real.log (m / n) + (n - m) * Real.log (1 - m / n) := by linarith
    have := mul_le_mul_of_nonneg_left h9 hl.le
    linarith

/-- C31 violated: from data that are all 0, the estimate `p = 0` is returned, and `nll` at this estimate is nan. -/
theorem mle_zero (hn : 0 < n) : mle findroot (ints [0]) none (.fixed (ofInt n)) .none = .ok ((n : ℤ), fin 0) ∧
    nll (ints [0]) n 0 none = .ok nan := by
  constructor
  · have h2 : mle findroot (ints [0]) (counts none) (.fixed (ofInt n)) .none = mleFixedN (ints [0]) (counts none) (ofInt 0) (ofInt n) .none := by
      rw [mle_unfold (by simp) (fun _ h => by cases h) (j := 0) (by simp [ints, py.max])]
    have hN : (0:ℝ) < n := by exact_mod_cast hn
    have h3 : ¬ ofInt 0 > ofInt (n : ℤ) := by
      rw [ofInt_def, ofInt_def, gt_iff, fin_lt, not_lt]; simp
    have h4 : validateNpNum (ofInt n) (fin (1 / 2)) = .ok (ofInt n, fin (1 / 2)) := by
      have h5 : ¬ ofInt (n : ℤ) < 0 := by rw [ofInt_def, zero_def, fin_lt, not_lt]; exact_mod_cast hN.le
      have h6 : ofInt (n : ℤ) =. ofInt (n : ℤ) := by simp [ofInt_def]
      simp only [validateNpNum, validateP_ok (show (0:ℝ) ≤ 1 / 2 by norm_num) (by norm_num), ok_bind, h5, if_false, int_ofInt, h6,
        not_true, pure_eq_ok]
    have h5 : fin 0 /. ofInt (n : ℤ) = .ok (fin 0) := by rw [ofInt_natCast, fin_div _ hN.ne', zero_div]
    have h6 : stats.mean (ints [0]) (counts none) = .ok (fin 0) := by
      rw [mean_ints (fun _ h => by cases h) (by simp [meant])]; simp [meant, sampleMean]
    refine h2.trans ?_
    simp only [mleFixedN, h3, if_false, h4, ok_bind, h6, h5, int_ofInt, pure_eq_ok]
  · have h1 := (logpmf_nan n).2
    have h2 : validateNp n 0 = .ok ((n : ℤ), fin 0) := by rw [zero_def]; exact validate_ok n le_rfl zero_le_one
    have h3 := bounds (n := n) (ks := [0]) (by simp)
    have h4 : validateCounts (ints [0]) none true = .ok (some [fin 1]) := by simp [validateCounts, ints, one_def]
    rw [zero_def] at h1 h2
    simp only [nll, zero_def, h2, ok_bind, h3, if_neg (not_not.2 (allInt [0])), h4, nllCounts, Option.getD_some]
    have h5 : intOf (fin 0) = 0 := by simp [intOf]
    simp [ints, h5, h1, mp.fsum]

theorem tryExcept_ok {r o : M Num} {v : Num} (h : tryExcept r o = .ok v) : r = .ok v ∨ o = .ok v := by
  unfold tryExcept at h
  split at h
  · exact Or.inr h
  · exact Or.inl h

/-- C31: with `p` fixed, when `mle` returns `n` it maximises the likelihood over all `n` that the data admit, if no counts are
given or `n` is larger than all data (see `mle_ignores_counts`).  `findroot` returns only roots, and none below `max(x) - 1`,
where the code evaluates the digamma function at negative arguments.  Missing: that the secant method finds a root. -/
theorem mle_fixedP_partial {j : ℤ} (hj : j ∈ ks) (hmax : ∀ k ∈ ks, k ≤ j) (hf : SoundFinder findroot)
    (hlow : ∀ f x0 r, findroot f x0 = .ok r → ∃ t : ℝ, r = fin t ∧ (j:ℝ) - 1 < t) (h0 : 0 < p) (h1 : p < 1) (hk : ∀ k ∈ ks, 0 ≤ k)
    (hc : Matching ks c) (hm : meant ks c ≠ []) (hp : ∀ v, pn ≠ .fixed v) {N : ℤ} {p' : Num}
    (h : mle findroot (ints ks) (counts c) pn (.fixed (fin p)) = .ok (N, p')) (hcase : c = none ∨ j < N) : p' = fin p ∧
    IsMle (fun N : ℤ => ∀ k ∈ ks, k ≤ N) (fun N => nll (ints ks) N (fin p) (counts c)) N := by
  obtain ⟨j', hj1, hmax1, hj2⟩ := max_ints (List.ne_nil_of_mem hj)
  obtain rfl : j' = j := le_antisymm (hmax _ hj1) (hmax1 _ hj)
  have hj0 := hk j' hj
  have h2 : mle findroot (ints ks) (counts c) pn (.fixed (fin p)) = mleFixedP findroot (ints ks) (counts c) (ofInt j') pn (fin p) := by
    rw [mle_unfold hk hc hj2]
    cases pn with
    | fixed v => exact absurd rfl (hp v)
    | none | initial v => rfl
  rw [h2] at h
  unfold mleFixedP at h
  have hlen : (0:ℝ) < (meant ks c).length := by exact_mod_cast List.length_pos_iff.2 hm
  -- the likelihood
  have hL : ∀ N : ℤ, (∀ k ∈ ks, k ≤ N) → nll (ints ks) N (fin p) (counts c) = .ok (fin (-LL p (meant ks c) N)) := fun N hN => by
    obtain ⟨n, rfl⟩ := Int.eq_ofNat_of_zero_le (hj0.trans (hN j' hj))
    have := nll_LL h0 h1 (n := n) (fun k hm => ⟨hk k hm, hN k hm⟩) hc
    simpa using this
  have hdom : ∀ t : ℝ, (j':ℝ) - 1 < t → ∀ k ∈ meant ks c, 0 ≤ k ∧ (k:ℝ) - 1 < t := fun t ht k hm => by
    have : (k:ℝ) ≤ j' := by exact_mod_cast hmax k (meant_mem hm)
    exact ⟨hk k (meant_mem hm), by linarith⟩
  -- the equation
  have hE : ∀ t : ℝ, (j':ℝ) - 1 < t → eqnFixed (ints ks) (counts c) (fin p) (fin t) = .ok (fin (G p (meant ks c) t / (meant ks c).length)) :=
      fun t ht => by
    have e1 : (ints ks).mapM (fun xi => mp.digamma (fin t - xi + 1)) = .ok (ks.map fun k : ℤ => fin (psi (t - k + 1))) := by
      rw [ints, List.mapM_map]
      refine mapM_ok _ fun k hm => ?_
      have : (k:ℝ) ≤ j' := by exact_mod_cast hmax k hm
      show mp.digamma (fin t - ofInt k + 1) = _
      rw [ofInt_def, fin_sub, one_def, fin_add, mp.digamma_pos (by linarith)]
    have e2 : mp.digamma (fin (t + 1)) = .ok (fin (psi (t + 1))) := mp.digamma_pos (by
      have : (0:ℝ) ≤ j' := by exact_mod_cast hj0
      linarith)
    have e3 := mean_meant hc hm fun x => psi (t - x + 1)
    have e4 : sampleMean ((meant ks c).map fun k : ℤ => psi (t - k + 1)) = psi (t + 1) + Real.log (1 - p) - G p (meant ks c) t / (meant ks c).length := by
      have e5 : G p (meant ks c) t = (meant ks c).length * (psi (t + 1) + Real.log (1 - p)) - ((meant ks c).map fun k : ℤ => psi (t - k + 1)).sum := by
        have e6 : ∀ k : ℤ, lam' p k t = (psi (t + 1) + Real.log (1 - p)) + -psi (t - k + 1) := fun k => by rw [lam']; ring
        simp only [G, e6]
        rw [List.sum_map_add]
        have e7 : ((meant ks c).map fun k : ℤ => -psi (t - k + 1)).sum = -((meant ks c).map fun k : ℤ => psi (t - k + 1)).sum := by
          rw [List.sum_neg]; simp [Function.comp_def]
        rw [e7]; simp; ring
      rw [sampleMean, List.length_map, e5]; field_simp; ring
    simp only [one_def] at e1
    simp only [eqnFixed, one_def, e1, ok_bind, e3, e4, fin_add, e2, neg_fin, mp.log1p_pos (show (-1:ℝ) < -p by linarith), pure_eq_ok]
    congr 2; ring_nf
  -- where the derivative is not positive at `max(x)`, this is the maximum
  have hN0 : G p (meant ks c) j' ≤ 0 → IsMle (fun N : ℤ => ∀ k ∈ ks, k ≤ N) (fun N => nll (ints ks) N (fin p) (counts c)) j' :=
    fun hG => isMle_of hmax hL fun N hN => neg_le_neg (LL_le_right (hdom j' (by linarith)) hG le_rfl (by exact_mod_cast hN j' hj))
  have hv : validateNp 1 (fin p) = .ok ((1:ℤ), fin p) := by exact_mod_cast validate_ok 1 h0.le h1.le
  have hpt : pThreshold (ints ks) = .ok (fin (-(Real.exp (-sampleMean (ks.map fun k : ℤ => psi (j' + 1) - psi (j' - k + 1))) - 1))) := by
    have e1 : (ints ks).mapM (fun ki => do return (← mp.digamma (ofInt j' + 1)) - (← mp.digamma (ofInt j' - ki + 1))) =
        .ok (ks.map fun k : ℤ => fin (psi (j' + 1) - psi (j' - k + 1))) := by
      rw [ints, List.mapM_map]
      refine mapM_ok _ fun k hm => ?_
      have h3 : (k:ℝ) ≤ j' := by exact_mod_cast hmax k hm
      have h4 : (0:ℝ) ≤ j' := by exact_mod_cast hj0
      simp only [Function.comp, ofInt_def, one_def, fin_add, fin_sub, mp.digamma_pos (show 0 < (j':ℝ) + 1 by linarith),
        mp.digamma_pos (show 0 < (j':ℝ) - k + 1 by linarith), ok_bind, pure_eq_ok]
    have e2 := mean_meant (ks := ks) (c := none) (fun _ h => by cases h) (List.ne_nil_of_mem hj) fun x => psi (j' + 1) - psi (j' - x + 1)
    rw [pThreshold, hj2]
    simp only [ok_bind]
    rw [e1]
    simp only [ok_bind]
    rw [show stats.mean (ks.map fun k : ℤ => fin (psi (j' + 1) - psi (j' - k + 1))) = _ from e2]
    simp only [ok_bind, neg_fin, mp.expm1_fin, pure_eq_ok, meant]
  simp only [hv, ok_bind, hpt] at h
  split_ifs at h with h3
  · -- the threshold
    rw [int_ofInt, ok_bind] at h
    obtain ⟨rfl, rfl⟩ := Prod.mk.inj (Except.ok.inj h)
    refine ⟨rfl, hN0 ?_⟩
    obtain rfl : c = none := hcase.resolve_right (lt_irrefl _)
    rw [ge_iff, fin_le] at h3
    have h4 : Real.log (1 - p) ≤ -sampleMean (ks.map fun k : ℤ => psi (j' + 1) - psi (j' - k + 1)) :=
      (Real.log_le_iff_le_exp (by linarith)).2 (by linarith)
    have h5 : G p ks j' = (ks.length:ℝ) * (sampleMean (ks.map fun k : ℤ => psi (j' + 1) - psi (j' - k + 1)) + Real.log (1 - p)) := by
      have hl : (0:ℝ) < ks.length := hlen
      rw [sampleMean, List.length_map, mul_add, mul_div_cancel₀ _ hl.ne', G]
      simp only [lam']
      rw [List.sum_map_add]; simp
    show G p ks j' ≤ 0
    rw [h5]
    exact mul_nonpos_of_nonneg_of_nonpos (Nat.cast_nonneg _) (by linarith)
  · obtain ⟨m, -, h⟩ := ok_of_bind h
    obtain ⟨r, hr, h⟩ := ok_of_bind h
    have hroot : ∃ x0, findroot (eqnFixed (ints ks) (counts c) (fin p)) x0 = .ok r := by
      rcases tryExcept_ok hr with hr | hr
      · exact ⟨_, hr⟩
      · obtain ⟨x0, -, h5⟩ := ok_of_bind hr; exact ⟨_, h5⟩
    obtain ⟨x0, hr⟩ := hroot
    obtain ⟨t, rfl, ht⟩ := hlow _ _ _ hr
    have hG := hf _ _ _ hr
    rw [hE t ht, zero_def] at hG
    have hG : G p (meant ks c) t = 0 := (div_eq_zero_iff.1 (fin.inj (Except.ok.inj hG))).resolve_right hlen.ne'
    rw [roundN] at h
    split_ifs at h with h4
    · rw [int_ofInt, ok_bind] at h
      obtain ⟨rfl, rfl⟩ := Prod.mk.inj (Except.ok.inj h)
      rw [ofInt_def, fin_lt] at h4
      exact ⟨rfl, hN0 ((G_anti (hdom t ht) h4.le).trans hG.le)⟩
    · rw [ofInt_def, fin_lt, not_lt] at h4
      have ht0 : 0 ≤ t := le_trans (by exact_mod_cast hj0) h4
      simp only [py.int, if_pos ht0, ok_bind, mp.floor_fin, ofInt_def, fin_eq] at h
      have hfl : ∀ N : ℤ, (∀ k ∈ ks, k ≤ N) → (N:ℝ) ≤ t → LL p (meant ks c) N ≤ LL p (meant ks c) ⌊t⌋ := fun N hN hNt =>
        LL_le_left (hdom N (by have : (j':ℝ) ≤ N := by exact_mod_cast hN j' hj
                               linarith)) hG.ge (by exact_mod_cast Int.le_floor.2 hNt) (Int.floor_le t)
      have hjf : j' ≤ ⌊t⌋ := Int.le_floor.2 h4
      have hpos : (0:ℝ) ≤ (⌊t⌋ : ℝ) := by exact_mod_cast hj0.trans hjf
      simp only [if_pos hpos, Int.floor_intCast, ok_bind] at h
      split_ifs at h with h5
      · obtain ⟨rfl, rfl⟩ := Prod.mk.inj (Except.ok.inj h)
        refine ⟨rfl, isMle_of (fun k hk => (hmax k hk).trans hjf) hL fun N hN => neg_le_neg ?_⟩
        rcases le_total (N:ℝ) t with h6 | h6
        · exact hfl N hN h6
        · rw [h5]; exact LL_le_right (hdom t ht) hG.le le_rfl h6
      · have v0 : ∀ k ∈ ks, k ≤ ⌊t⌋ := fun k hk => (hmax k hk).trans hjf
        have v1 : ∀ k ∈ ks, k ≤ ⌊t⌋ + 1 := fun k hk => (v0 k hk).trans (by omega)
        simp only [hL _ v0, hL _ v1, ok_bind, fin_le] at h
        have hcl : ∀ N : ℤ, t ≤ (N:ℝ) → LL p (meant ks c) N ≤ LL p (meant ks c) ((⌊t⌋ + 1 : ℤ) : ℝ) := fun N hNt => by
          have h6 : t ≤ ((⌊t⌋ + 1 : ℤ) : ℝ) := by push_cast; exact (Int.lt_floor_add_one t).le
          refine LL_le_right (hdom t ht) hG.le h6 ?_
          have h7 : (⌊t⌋:ℝ) < N := lt_of_lt_of_le (lt_of_le_of_ne (Int.floor_le t) h5) hNt
          have h8 : ⌊t⌋ < N := by exact_mod_cast h7
          exact_mod_cast (by omega : ⌊t⌋ + 1 ≤ N)
        split_ifs at h with h6
        · obtain ⟨rfl, rfl⟩ := Prod.mk.inj (Except.ok.inj h)
          refine ⟨rfl, isMle_of v0 hL fun N hN => ?_⟩
          rcases le_total (N:ℝ) t with h7 | h7
          · exact neg_le_neg (hfl N hN h7)
          · exact h6.trans (neg_le_neg (hcl N h7))
        · obtain ⟨rfl, rfl⟩ := Prod.mk.inj (Except.ok.inj h)
          refine ⟨rfl, isMle_of v1 hL fun N hN => ?_⟩
          rcases le_total (N:ℝ) t with h7 | h7
          · exact (not_le.1 h6).le.trans (neg_le_neg (hfl N hN h7))
          · exact neg_le_neg (hcl N h7)

theorem validateNpNum_half {j : ℤ} (hj : 0 ≤ j) : validateNpNum (ofInt j) (fin (1 / 2)) = .ok (ofInt j, fin (1 / 2)) := by
  have h5 : ¬ ofInt j < 0 := by rw [ofInt_def, zero_def, fin_lt, not_lt]; exact_mod_cast hj
  have h6 : ofInt j =. ofInt j := by simp [ofInt_def]
  simp only [validateNpNum, validateP_ok (show (0:ℝ) ≤ 1 / 2 by norm_num) (by norm_num), ok_bind, h5, if_false, int_ofInt, h6,
    not_true, pure_eq_ok]

/-- C31: with nothing fixed, when `mle` returns, the estimate of `p` is the mean divided by the estimate of `n`, which
maximises the likelihood for this `n` (see `mle_fixedN`).  Missing: that the estimate of `n` maximises the likelihood. -/
theorem mle_free_partial (hk : ∀ k ∈ ks, 0 ≤ k) (hc : Matching ks c) (hm : meant ks c ≠ []) (hp : ∀ v, pn ≠ .fixed v)
    (hq : ∀ v, pp ≠ .fixed v) {N : ℤ} {p' : Num} (h : mle findroot (ints ks) (counts c) pn pp = .ok (N, p')) :
    fin (sampleMean ((meant ks c).map fun k : ℤ => (k:ℝ))) /. ofInt N = .ok p' := by
  have hks : ks ≠ [] := by
    obtain ⟨k, hk⟩ := List.exists_mem_of_ne_nil _ hm
    exact List.ne_nil_of_mem (meant_mem hk)
  obtain ⟨j, hj, hmax, hj2⟩ := max_ints hks
  have h2 : mle findroot (ints ks) (counts c) pn pp = mleFree findroot (ints ks) (counts c) (ofInt j) pn pp := by
    rw [mle_unfold hk hc hj2]
    cases pn with
    | fixed v => exact absurd rfl (hp v)
    | none | initial v =>
      cases pp with
      | fixed v => exact absurd rfl (hq v)
      | none | initial v => rfl
  rw [h2] at h
  unfold mleFree at h
  have key : ∀ nhat, (do
      if nhat < ofInt j then mleFixedN (ints ks) (counts c) (ofInt j) (ofInt j) pp
      else
        let phat ← fin (sampleMean ((meant ks c).map fun k : ℤ => (k:ℝ))) /. nhat
        let nint ← py.int nhat
        if ofInt nint =. nhat then return (nint, phat)
        let nhat0 ← py.int (mp.floor nhat)
        let nhat1 ← py.int (mp.ceil nhat)
        let phat0 ← fin (sampleMean ((meant ks c).map fun k : ℤ => (k:ℝ))) /. ofInt nhat0
        let phat1 ← fin (sampleMean ((meant ks c).map fun k : ℤ => (k:ℝ))) /. ofInt nhat1
        let nll0 ← nll (ints ks) nhat0 phat0 (counts c)
        let nll1 ← nll (ints ks) nhat1 phat1 (counts c)
        if nll0 ≤ nll1 then return (nhat0, phat0)
        return (nhat1, phat1)) = .ok (N, p') → fin (sampleMean ((meant ks c).map fun k : ℤ => (k:ℝ))) /. ofInt N = .ok p' := by
    intro nhat h'
    split_ifs at h' with h3
    · unfold mleFixedN at h'
      have h4 : ¬ ofInt j > ofInt j := by simp [ofInt_def]
      simp only [h4, if_false] at h'
      cases pp with
      | fixed v => exact absurd rfl (hq v)
      | none | initial v =>
        rw [validateNpNum_half (hk j hj), ok_bind] at h'
        simp only [mean_ints hc hm, ok_bind] at h'
        obtain ⟨q, h7, h'⟩ := ok_of_bind h'
        rw [int_ofInt, ok_bind] at h'
        obtain ⟨rfl, rfl⟩ := Prod.mk.inj (Except.ok.inj h')
        exact h7
    · obtain ⟨ph, h4, h'⟩ := ok_of_bind h'
      obtain ⟨ni, h5, h'⟩ := ok_of_bind h'
      split_ifs at h' with h6
      · obtain ⟨rfl, rfl⟩ := Prod.mk.inj (Except.ok.inj h')
        have : nhat = ofInt ni := by
          cases nhat with
          | fin t => rw [ofInt_def, fin_eq] at h6; rw [← h6, ofInt_def]
          | _ => simp [py.int] at h5
        rw [← this]; exact h4
      · obtain ⟨n0, -, h'⟩ := ok_of_bind h'
        obtain ⟨n1, -, h'⟩ := ok_of_bind h'
        obtain ⟨p0, h7, h'⟩ := ok_of_bind h'
        obtain ⟨p1, h8, h'⟩ := ok_of_bind h'
        obtain ⟨l0, -, h'⟩ := ok_of_bind h'
        obtain ⟨l1, -, h'⟩ := ok_of_bind h'
        split_ifs at h' with h9
        · obtain ⟨rfl, rfl⟩ := Prod.mk.inj (Except.ok.inj h'); exact h7
        · obtain ⟨rfl, rfl⟩ := Prod.mk.inj (Except.ok.inj h'); exact h8
  cases pn with
  | fixed v => exact absurd rfl (hp v)
  | none =>
    simp only [mean_ints hc hm, ok_bind, pure_eq_ok] at h
    obtain ⟨v, -, h⟩ := ok_of_bind h
    split_ifs at h
    · obtain ⟨q, -, h⟩ := ok_of_bind h
      obtain ⟨q, -, h⟩ := ok_of_bind h
      obtain ⟨r, -, h⟩ := ok_of_bind h
      exact key r h
    · obtain ⟨r, -, h⟩ := ok_of_bind h
      exact key r h
  | initial v =>
    simp only [mean_ints hc hm, ok_bind, pure_eq_ok] at h
    split_ifs at h
    · cases h
    · obtain ⟨r, -, h⟩ := ok_of_bind h
      exact key r h

/-- C31: errors.  Data that are negative or not integers, a fixed `n` below the largest value, counts that do not fit. -/
theorem mle_errors (hk : ∀ k ∈ ks, 0 ≤ k) :
    (∀ n : ℕ, (∃ k ∈ ks, (n:ℤ) < k) → Matching ks c → mle findroot (ints ks) (counts c) (.fixed (ofInt n)) pp = .error .valueError) ∧
    (∀ (xs : List ℝ) (c : Option (List Num)), (∃ x ∈ xs, ∀ k : ℕ, x ≠ k) → mle findroot (xs.map fin) c pn pp = .error .valueError) := by
  constructor
  · rintro n ⟨k, hk', hn⟩ hc
    obtain ⟨j, hj, hmax, hj2⟩ := max_ints (List.ne_nil_of_mem hk')
    rw [mle_unfold hk hc hj2]
    have : ofInt j > ofInt n := by rw [ofInt_def, ofInt_def, gt_iff, fin_lt]; exact_mod_cast hn.trans_le (hmax k hk')
    simp only [mleFixedN, this, if_true]; rfl
  · rintro xs c ⟨x, hx, hn⟩
    have h1 : (xs.map fin).mapM (fun xi => do return decide (ofInt (← py.int xi) =. xi)) =
        .ok (xs.map fun x => decide (((if 0 ≤ x then ⌊x⌋ else ⌈x⌉ : ℤ) : ℝ) = x)) := by
      rw [List.mapM_map]
      refine mapM_ok _ fun t _ => ?_
      simp only [Function.comp, py.int, ok_bind, pure_eq_ok]
      simp [ofInt_def]
    unfold mle
    simp only [h1, ok_bind]
    split_ifs with h2
    · have h3 : badLow (xs.map fin) (some (fin 0)) false := by
        rw [badLow_weak]
        by_contra h3
        push Not at h3
        have h4 := List.all_eq_true.1 h2
        have h5 := h4 _ (List.mem_map_of_mem hx)
        simp only [id, decide_eq_true_eq, if_pos (h3 x hx)] at h5
        have h6 : (0:ℤ) ≤ ⌊x⌋ := Int.floor_nonneg.2 (h3 x hx)
        refine hn ⌊x⌋.toNat ?_
        have : ((⌊x⌋.toNat : ℤ) : ℝ) = (⌊x⌋:ℝ) := by rw [Int.toNat_of_nonneg h6]
        exact h5.symm.trans (this.symm.trans (Int.cast_natCast _))
      rw [zero_def, validateXBounds_low h3]; rfl
    · rfl

/-- C31, C29 violated: with `p` fixed, the test whether `n = max(x)` ignores the counts.  The data 1, 2 with the counts 0, 1
mean the data 2; with `p = 16/25` the code returns `n = 2`, but `n = 3` is more likely. -/
theorem mle_ignores_counts : mle findroot (ints [1, 2]) (counts (some [0, 1])) .none (.fixed (fin (16 / 25))) = .ok ((2:ℤ), fin (16 / 25)) ∧
    ¬ IsMle (fun N : ℤ => ∀ k ∈ [(1:ℤ), 2], k ≤ N) (fun N => nll (ints [1, 2]) N (fin (16 / 25)) (counts (some [0, 1]))) 2 := by
  have hc : Matching [1, 2] (some [0, 1]) := fun l h => by cases h; rfl
  have hv : validateNp 1 (fin (16 / 25)) = .ok ((1:ℤ), fin (16 / 25)) := by exact_mod_cast validate_ok 1 (by norm_num : (0:ℝ) ≤ 16 / 25) (by norm_num)
  constructor
  · have hm : py.max (ints [1, 2]) = .ok (ofInt 2) := by
      have : (fin ((2:ℤ):ℝ)) > fin ((1:ℤ):ℝ) := by rw [gt_iff, fin_lt]; norm_num
      simp only [ints, py.max, List.map_cons, List.map_nil, List.foldl_cons, List.foldl_nil, ofInt_def, if_pos this]
    rw [mle_unfold (by simp) hc hm]
    have p2 : psi 2 = psi 1 + 1 := by have := psi_add_one (x := 1) one_pos; norm_num at this; exact this
    have p3 : psi 3 = psi 2 + 1 / 2 := by have := psi_add_one (x := 2) two_pos; norm_num at this ⊢; exact this
    have hpt : pThreshold (ints [1, 2]) = .ok (fin (1 - Real.exp (-1))) := by
      unfold pThreshold
      rw [hm, ok_bind]
      simp only [ints, List.map_cons, List.map_nil, List.mapM_cons, List.mapM_nil, ofInt_def, one_def, fin_add, fin_sub,
        Int.cast_ofNat, Int.cast_one, pure_eq_ok]
      have e : ∀ x : ℝ, x = 1 ∨ x = 2 ∨ x = 3 → mp.digamma (fin x) = .ok (fin (psi x)) := fun x hx => mp.digamma_pos (by
        rcases hx with rfl | rfl | rfl <;> norm_num)
      rw [e (2 + 1) (by norm_num), e (2 - 1 + 1) (by norm_num), e (2 - 2 + 1) (by norm_num)]
      simp only [ok_bind, fin_sub]
      rw [show [fin (psi (2 + 1) - psi (2 - 1 + 1)), fin (psi (2 + 1) - psi (2 - 2 + 1))] =
        [psi (2 + 1) - psi (2 - 1 + 1), psi (2 + 1) - psi (2 - 2 + 1)].map fin from rfl, mean_fin (by simp)]
      have e2 : sampleMean [psi (2 + 1) - psi (2 - 1 + 1), psi (2 + 1) - psi (2 - 2 + 1)] = 1 := by
        norm_num [sampleMean, p3, p2]; ring
      rw [e2, ok_bind, neg_fin, mp.expm1_fin, neg_fin, neg_sub]
    have h3 : fin (16 / 25) ≥ fin (1 - Real.exp (-1)) := by
      rw [ge_iff, fin_le]
      have h4 := Real.exp_one_lt_d9
      have h5 : (9 / 25 : ℝ) ≤ Real.exp (-1) := by
        rw [Real.exp_neg, le_inv_comm₀ (by norm_num) (Real.exp_pos _)]
        norm_num at h4 ⊢; linarith
      linarith
    simp only [mleFixedP, hv, ok_bind, hpt, h3, if_true, int_ofInt, pure_eq_ok]
  · rintro ⟨-, a, h1, h2⟩
    have e2 := nll_eval (n := 2) (p := 16 / 25) (ks := [1, 2]) (by norm_num) (by norm_num) (by simp) hc
    have e3 := nll_eval (n := 3) (p := 16 / 25) (ks := [1, 2]) (by norm_num) (by norm_num) (by simp) hc
    obtain ⟨b, h3, h4⟩ := h2 3 (by simp)
    have h1 := e2.symm.trans h1
    have h3 := e3.symm.trans h3
    rw [← Except.ok.inj h1, ← Except.ok.inj h3, fin_le] at h4
    have h5 : l 2 (16 / 25) 2 < l 3 (16 / 25) 2 := by
      simp only [l, B, show (2:ℤ).toNat = 2 from rfl]
      refine Real.log_lt_log (by norm_num) (by norm_num [Nat.choose])
    simp [meant, replicated] at h4
    linarith

/-- Non-vacuity: the data 3, 1 with the counts 2, 1 and `n = 4`; a root finder as in `mle_fixedP_partial`. -/
example : Matching [3, 1] (some [2, 1]) ∧ (∀ k ∈ [(3:ℤ), 1], 0 ≤ k ∧ k ≤ (4:ℕ)) ∧ (∃ k ∈ meant [3, 1] (some [2, 1]), k ≠ 0) ∧
    (∃ k ∈ meant [3, 1] (some [2, 1]), k ≠ (4:ℕ)) := by
  refine ⟨fun l h => by cases h; rfl, by simp, ⟨3, by simp [meant, replicated], by norm_num⟩, ⟨3, by simp [meant, replicated], by norm_num⟩⟩

example (j : ℤ) : ∃ findroot : (Num → M Num) → Num → M Num, SoundFinder findroot ∧
    (∀ f x0 r, findroot f x0 = .ok r → ∃ t : ℝ, r = fin t ∧ (j:ℝ) - 1 < t) ∧
    ∀ f x0, (∃ t : ℝ, (j:ℝ) - 1 < t ∧ f (fin t) = .ok 0) → ∃ r, findroot f x0 = .ok r := by
  refine ⟨fun f _ => if h : ∃ t : ℝ, (j:ℝ) - 1 < t ∧ f (fin t) = .ok 0 then .ok (fin h.choose) else .error .valueError, ?_, ?_, ?_⟩
  · intro f x0 r h
    dsimp only at h
    split_ifs at h with h1
    rw [← Except.ok.inj h]; exact h1.choose_spec.2
  · intro f x0 r h
    dsimp only at h
    split_ifs at h with h1
    exact ⟨_, (Except.ok.inj h).symm, h1.choose_spec.1⟩
  · intro f x0 h
    exact ⟨_, dif_pos h⟩

end Mpsci.binomial
