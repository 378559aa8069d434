import Verif.Lemmas.Fit.Counts
import Verif.Lemmas.Disc.Poisson
import Verif.Props.Disc.Poisson

/-! `poisson.nll` and `poisson.mle`. -/

namespace Mpsci.poisson

open Classical Num Spec common

variable {lam : ℝ} {ks : List ℤ} {c : Option (List ℕ)}

noncomputable def l (lam : ℝ) (k : ℤ) : ℝ := k * Real.log lam - lam - Real.log (Real.Gamma ((k:ℝ) + 1))

theorem validate_bad (h : lam ≤ 0) : validateLam (fin lam) = .error .valueError := by simp [validateLam, h]

theorem logpmf_l (h : 0 < lam) {k : ℤ} (hk : 0 ≤ k) : logpmf k (fin lam) = .ok (fin (l lam k)) := by
  have h1 : (0:ℝ) < (k:ℝ) + 1 := by exact_mod_cast (by omega : 0 < k + 1)
  simp only [logpmf, validate_ok h, ok_bind, not_lt.2 hk, if_false, mp.log_pos h, ofInt_def, Int.cast_add, Int.cast_one, mp.loggamma_pos h1, fin_mul,
    fin_sub, pure_eq_ok, l]

theorem bounds (hk : ∀ k ∈ ks, 0 ≤ k) : validateXBounds (ints ks) (some (fin 0)) none false false = .ok (ints ks) := by
  rw [ints_eq]
  refine validateXBounds_ok ?_ (by simp [badHigh])
  rw [badLow_weak]; push Not
  simp only [List.mem_map]; rintro _ ⟨k, hm, rfl⟩
  exact_mod_cast hk k hm

theorem allInt (hk : ∀ k ∈ ks, 0 ≤ k) : ∀ t ∈ ints ks, mp.isint t ∧ t ≥ fin 0 := by
  simp only [ints, List.mem_map]
  rintro _ ⟨k, hm, rfl⟩
  refine ⟨⟨k, rfl⟩, ?_⟩
  rw [ofInt_def, ge_iff, fin_le]; exact_mod_cast hk k hm

theorem nll_eval (h : 0 < lam) (hk : ∀ k ∈ ks, 0 ≤ k) (hc : Matching ks c) :
    nll (ints ks) (fin lam) (counts c) = .ok (fin (-((meant ks c).map (l lam)).sum)) := by
  have h1 := nllCounts_meant (lp := (logpmf · (fin lam))) (fun k hm => logpmf_l h (hk k hm)) hc
  simp only [nll, validate_ok h, ok_bind, zero_def, bounds hk, if_neg (not_not.2 (allInt hk))]
  exact h1

/-- C29, C30: `nll` is minus the sum of `logpmf`, and data with counts mean the replicated data. -/
theorem nll_spec (h : 0 < lam) : NllIsNegSumZ {k | 0 ≤ k} (logpmf · (fin lam)) (nll · (fin lam) none) ∧
    CountsReplicate {k | 0 ≤ k} (nll · (fin lam) ·) :=
  nll_countsSpec (fun _ => logpmf_l h) fun _ hk _ hc => nll_eval h hk hc

/-- C29: unusable counts are rejected. -/
theorem nll_badCounts (h : 0 < lam) : CountsRejects {k | 0 ≤ k} (nll · (fin lam) ·) := by
  intro ks c hk hc
  have h1 : validateCounts (ints ks) (some (c.map fin)) true = .error .valueError := validateCounts_bad (by simpa [ints] using hc) _
  simp only [nll, validate_ok h, ok_bind, zero_def, bounds hk, if_neg (not_not.2 (allInt hk)), h1]
  rfl

/-- C30: data that are not nonnegative integers are rejected. -/
theorem nll_rejects (h : 0 < lam) (c : Option (List Num)) : NllRejects {x | ∃ n : ℕ, x = n} (nll · (fin lam) c) := by
  rintro xs ⟨x, hx, hn⟩
  by_cases hb : ∃ x ∈ xs, x < 0
  · have h1 : validateXBounds (xs.map fin) (some (fin 0)) none false false = .error .valueError := validateXBounds_low (badLow_weak.2 hb)
    simp only [nll, validate_ok h, ok_bind, zero_def, h1]
    rfl
  · have h1 : validateXBounds (xs.map fin) (some (fin 0)) none false false = .ok (xs.map fin) :=
      validateXBounds_ok (by rw [badLow_weak]; exact hb) (by simp [badHigh])
    have h2 : ¬ ∀ t ∈ xs.map fin, mp.isint t ∧ t ≥ fin 0 := by
      intro h2
      obtain ⟨⟨k, h3⟩, h4⟩ := h2 (fin x) (List.mem_map_of_mem hx)
      rw [ofInt_def] at h3
      rw [ge_iff, fin_le] at h4
      obtain rfl := fin.inj h3
      have h5 : (0:ℤ) ≤ k := by exact_mod_cast h4
      refine hn ⟨k.toNat, ?_⟩
      have : ((k.toNat : ℤ) : ℝ) = (k:ℝ) := by rw [Int.toNat_of_nonneg h5]
      rw [← this, Int.cast_natCast]
    simp only [nll, validate_ok h, ok_bind, zero_def, h1, h2, not_false_eq_true, if_true]
    rfl

/-- C30 -/
theorem nll_invalid (h : lam ≤ 0) (xs : List Num) (c : Option (List Num)) : nll xs (fin lam) c = .error .valueError := by
  simp only [nll, validate_bad h]; rfl

/-- C29: the estimate from data with counts is the mean of the replicated data. -/
theorem mle_counts (hc : Matching ks c) (hn : meant ks c ≠ []) :
    mle (ints ks) (counts c) = .ok (fin (sampleMean ((meant ks c).map fun k : ℤ => (k:ℝ)))) := by
  simp only [mle, validateCounts_match hc, ok_bind, mean_ints hc hn]

/-- C31: with or without counts, unless all data are 0, the estimate maximises the likelihood. -/
theorem mle_isMle (hk : ∀ k ∈ ks, 0 ≤ k) (hc : Matching ks c) (hp : ∃ k ∈ meant ks c, k ≠ 0) :
    ∃ m : ℝ, mle (ints ks) (counts c) = .ok (fin m) ∧
      IsMle (fun lam : ℝ => 0 < lam) (fun lam => nll (ints ks) (fin lam) (counts c)) m := by
  obtain ⟨k0, hk0, h0⟩ := hp
  have hn : meant ks c ≠ [] := List.ne_nil_of_mem hk0
  set xs := (meant ks c).map fun k : ℤ => (k:ℝ) with hxs
  have hx : xs ≠ [] := by simpa [hxs] using hn
  have hm : 0 < sampleMean xs := by
    have := sampleMean_pos (xs := xs) (φ := id) (fun x hx => ?_) ⟨(k0:ℝ), List.mem_map_of_mem hk0, ?_⟩
    · simpa using this
    · obtain ⟨k, hm, rfl⟩ := List.mem_map.1 hx
      exact Int.cast_nonneg (hk k (meant_mem hm))
    · exact Int.cast_pos.2 (lt_of_le_of_ne (hk k0 (meant_mem hk0)) h0.symm)
  refine ⟨sampleMean xs, mle_counts hc hn, isMle_of hm (fun lam h => nll_eval h hk hc) fun lam h => ?_⟩
  have e : ∀ lam, -((meant ks c).map (l lam)).sum = xs.length * (lam - sampleMean xs * Real.log lam) +
      ((meant ks c).map fun k : ℤ => Real.log (Real.Gamma ((k:ℝ) + 1))).sum := fun lam => by
    have h1 : ∀ k, l lam k = (-lam + Real.log lam * k) + -Real.log (Real.Gamma ((k:ℝ) + 1)) := fun k => by rw [l]; ring
    have h2 : ((meant ks c).map fun k : ℤ => (-lam + Real.log lam * (k:ℝ))).sum = xs.length * -lam + Real.log lam * xs.sum := by
      have h3 := sum_map_affine (c := -lam) (d := Real.log lam) xs id
      rw [hxs, List.map_map, List.map_id] at h3
      exact h3
    have h4 : ((meant ks c).map fun k : ℤ => -Real.log (Real.Gamma ((k:ℝ) + 1))).sum =
        -((meant ks c).map fun k : ℤ => Real.log (Real.Gamma ((k:ℝ) + 1))).sum := by
      rw [List.sum_neg]; simp [Function.comp_def]
    rw [List.map_congr_left fun k _ => h1 k, List.sum_map_add, h2, h4]
    have h5 : xs.sum = xs.length * sampleMean xs := by
      rw [sampleMean]; field_simp [(length_pos hx).ne']
    rw [h5]; ring
  rw [e, e]
  have h3 := log_add_div_min hm h
  have h4 := Real.log_le_sub_one_of_pos (div_pos h hm)
  rw [Real.log_div h.ne' hm.ne'] at h4
  have h5 : sampleMean xs - sampleMean xs * Real.log (sampleMean xs) ≤ lam - sampleMean xs * Real.log lam := by
    have := mul_le_mul_of_nonneg_left h4 hm.le
    have e2 : sampleMean xs * (lam / sampleMean xs - 1) = lam - sampleMean xs := by field_simp
    rw [e2] at this
    linarith
  have := mul_le_mul_of_nonneg_left h5 (show (0:ℝ) ≤ xs.length by positivity)
  linarith

/-- C31 violated: from data that are all 0 the estimate is 0, a parameter that `nll` rejects. -/
theorem mle_zero (hk : ∀ k ∈ ks, k = 0) (hn : ks ≠ []) : mle (ints ks) none = .ok (fin 0) ∧
    nll (ints ks) (fin 0) none = .error .valueError := by
  refine ⟨?_, nll_invalid le_rfl _ _⟩
  have h1 := mle_counts (ks := ks) (c := none) (fun _ h => by cases h) hn
  have h2 : ((meant ks none).map fun k : ℤ => (k:ℝ)).sum = 0 :=
    List.sum_eq_zero fun x hx => by
      obtain ⟨k, hm, rfl⟩ := List.mem_map.1 hx
      rw [hk k hm, Int.cast_zero]
  rw [sampleMean, h2, zero_div] at h1
  exact h1

/-- C29: counts of the wrong length, negative or not integers are rejected. -/
theorem mle_badCounts (xs : List Num) {c : List ℝ} (h : c.length ≠ xs.length ∨ ∃ v ∈ c, ∀ n : ℕ, v ≠ n) :
    mle xs (some (c.map fin)) = .error .valueError := by
  simp only [mle, validateCounts_bad h]; rfl

/-- Non-vacuity: the data 3, 1 with the counts 2, 0 mean the data 3, 3. -/
example : Matching [3, 1] (some [2, 0]) ∧ meant [3, 1] (some [2, 0]) = [3, 3] ∧ (∀ k ∈ [(3:ℤ), 1], 0 ≤ k) ∧
    ∃ k ∈ meant [3, 1] (some [2, 0]), k ≠ 0 := by
  refine ⟨fun l h => by cases h; rfl, rfl, by simp, 3, by simp [meant, replicated], by norm_num⟩

end Mpsci.poisson
