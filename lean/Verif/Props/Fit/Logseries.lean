import Verif.Lemmas.Fit.Logseries
import Mathlib.Analysis.Complex.ExponentialBounds

/-! `logseries.nll` and `logseries.mle`. -/

namespace Mpsci.logseries

open Classical Num Spec common

variable {p : ℝ} {ks : List ℤ} {c : Option (List ℕ)} {findroot1 : (Num → M Num) → Num → M Num}
  {findroot2 : (Num → M Num) → Num → Num → M Num}

/-- C29, C30: `nll` is minus the sum of `logpmf`, and data with counts mean the replicated data. -/
theorem nll_spec (h0 : 0 < p) (h1 : p < 1) : NllIsNegSumZ {k | 1 ≤ k} (logpmf · (fin p)) (nll · (fin p) none) ∧
    CountsReplicate {k | 1 ≤ k} (nll · (fin p) ·) :=
  nll_countsSpec (fun _ => logpmf_l h0 h1) fun _ hk _ hc => nll_eval h0 h1 hk hc

/-- C29: unusable counts are rejected by `nll`. -/
theorem nll_badCounts (h0 : 0 < p) (h1 : p < 1) : CountsRejects {k | 1 ≤ k} (nll · (fin p) ·) := by
  intro ks c hk hc
  have h2 : validateCounts (ints ks) (some (c.map fin)) true = .error .valueError := validateCounts_bad (by simpa [ints] using hc) _
  simp only [nll, validateP_ok h0.le h1.le, ok_bind, if_neg (not_not.2 (allInt hk)), h2]
  rfl

/-- C30: data that are not positive integers are rejected. -/
theorem nll_rejects (h0 : 0 ≤ p) (h1 : p ≤ 1) (c : Option (List Num)) : NllRejects {x | ∃ n : ℕ, 0 < n ∧ x = n} (nll · (fin p) c) := by
  rintro xs ⟨x, hx, hn⟩
  have h2 : ¬ ∀ t ∈ xs.map fin, mp.isint t ∧ t ≥ 1 := by
    intro h2
    obtain ⟨⟨k, h3⟩, h4⟩ := h2 (fin x) (List.mem_map_of_mem hx)
    rw [ofInt_def] at h3
    rw [ge_iff, one_def, fin_le] at h4
    obtain rfl := fin.inj h3
    have h5 : (1:ℤ) ≤ k := by exact_mod_cast h4
    refine hn ⟨k.toNat, by omega, ?_⟩
    have : ((k.toNat : ℤ) : ℝ) = (k:ℝ) := by rw [Int.toNat_of_nonneg (by omega)]
    rw [← this, Int.cast_natCast]
  simp only [nll, validateP_ok h0 h1, ok_bind, h2, not_false_eq_true, if_true]
  rfl

/-- C30 -/
theorem nll_invalid (h : p < 0 ∨ 1 < p) (xs : List Num) (c : Option (List Num)) : nll xs (fin p) c = .error .valueError := by
  simp only [nll, validateP_bad h]; rfl

theorem mean_gt (hk : ∀ k ∈ ks, 1 ≤ k) (hp : ∃ k ∈ meant ks c, k ≠ 1) : 1 < sampleMean ((meant ks c).map fun k : ℤ => (k:ℝ)) := by
  obtain ⟨k0, hk0, h1⟩ := hp
  have hn : (meant ks c).map (fun k : ℤ => (k:ℝ)) ≠ [] := by
    have := List.ne_nil_of_mem hk0
    simpa using this
  have h := sampleMean_pos (xs := (meant ks c).map fun k : ℤ => (k:ℝ)) (φ := fun x => x - 1) (fun x hx => ?_)
    ⟨(k0:ℝ), List.mem_map_of_mem hk0, ?_⟩
  · have e := sampleMean_affine hn id (-1) 1
    rw [List.map_id] at e
    simp only [id] at e
    rw [show (fun x : ℝ => x - 1) = fun x => -1 + 1 * x by funext x; ring, e] at h
    linarith
  · obtain ⟨k, hm, rfl⟩ := List.mem_map.1 hx
    have : (1:ℝ) ≤ k := by exact_mod_cast hk k (meant_mem hm)
    linarith
  · have h2 : (1:ℤ) < k0 := lt_of_le_of_ne (hk k0 (meant_mem hk0)) (Ne.symm h1)
    have : (1:ℝ) < k0 := by exact_mod_cast h2
    linarith

/-- Where the search for the estimate starts: between 0 and 1. -/
theorem approx_eval {m : ℝ} (hm : Real.exp 1 < m) : ∃ q ∈ Set.Ioo (0:ℝ) 1, approxInvMleFunc (fin m) = .ok (fin q) := by
  have key : ∀ m : ℝ, Real.exp 1 < m → ∃ w : ℝ, w < -1 ∧ mp.lambertwM1 (fin (-1 / m)) = .ok (fin w) ∧ 1 / (m * w) = -Real.exp w := by
    intro m hm
    have hm0 : 0 < m := (Real.exp_pos 1).trans hm
    have hex : ∃ w : ℝ, w ≤ -1 ∧ w * Real.exp w = -1 / m := by
      have hc : ContinuousOn (fun w : ℝ => w * Real.exp w) (Set.Icc (-2 * m) (-1)) := by fun_prop
      have hlt : -2 * m ≤ (-1:ℝ) := by have := Real.exp_one_gt_d9; linarith
      have h1 : (-1:ℝ) * Real.exp (-1) ≤ -1 / m := by
        rw [Real.exp_neg, ← div_eq_mul_inv, div_le_div_iff₀ (Real.exp_pos 1) hm0]; linarith
      have h2 : -1 / m ≤ -2 * m * Real.exp (-2 * m) := by
        have h3 : 2 * m * (2 * m) / 2 ≤ Real.exp (2 * m) := by
          have := Real.quadratic_le_exp_of_nonneg (show 0 ≤ 2 * m by linarith)
          nlinarith
        rw [show -2 * m = -(2 * m) by ring, Real.exp_neg, ← div_eq_mul_inv, div_le_div_iff₀ hm0 (Real.exp_pos _)]
        nlinarith
      obtain ⟨w, hw, e⟩ := intermediate_value_Icc' hlt hc ⟨h1, h2⟩
      exact ⟨w, hw.2, e⟩
    refine ⟨hex.choose, ?_, ?_, ?_⟩
    · refine lt_of_le_of_ne hex.choose_spec.1 fun h => ?_
      have e := hex.choose_spec.2
      rw [h, Real.exp_neg, ← div_eq_mul_inv, div_eq_div_iff (Real.exp_pos 1).ne' hm0.ne'] at e
      linarith
    · simp only [mp.lambertwM1, dif_pos hex]
    · have h1 := hex.choose_spec.1
      have e := hex.choose_spec.2
      generalize hex.choose = w at h1 e ⊢
      have h2 : w ≠ 0 := by linarith
      field_simp at e ⊢
      linarith
  have hm0 : 0 < m := (Real.exp_pos 1).trans hm
  obtain ⟨w, hw, e1, e2⟩ := key m hm
  have h1 : 0 < 1 - Real.exp w ∧ 1 - Real.exp w < 1 := ⟨by
    have := Real.exp_lt_one_iff.2 (show w < 0 by linarith)
    linarith, by linarith [Real.exp_pos w]⟩
  have h2 : Real.exp 1 < m / (1 - Real.exp w) := by
    rw [lt_div_iff₀ h1.1]
    nlinarith [Real.exp_pos 1]
  obtain ⟨w', hw', e1', e2'⟩ := key _ h2
  have h3 : 0 < 1 - Real.exp w' ∧ 1 - Real.exp w' < 1 := ⟨by
    have := Real.exp_lt_one_iff.2 (show w' < 0 by linarith)
    linarith, by linarith [Real.exp_pos w']⟩
  have hm' : 0 < m / (1 - Real.exp w) := div_pos hm0 h1.1
  refine ⟨1 - Real.exp w', h3, ?_⟩
  simp only [approxInvMleFunc, one_def, neg_fin, fin_div _ hm0.ne', ok_bind, e1, fin_mul, fin_div _ (mul_ne_zero hm0.ne' (show w ≠ 0 by linarith)),
    e2, fin_add, ← sub_eq_add_neg, fin_div _ h1.1.ne', fin_div _ hm'.ne', e1', fin_div _ (mul_ne_zero hm'.ne' (show w' ≠ 0 by linarith)), e2',
    fin_lt, h3.2, if_true, pure_eq_ok]

/-- What `mle` does if the sample mean is greater than 1: it looks for a zero, starting between 0 and 1 (with two starting points if the mean
is at most `e`). -/
theorem mle_start (hc : Matching ks c) (hn : meant ks c ≠ [])
    (hm : 1 < sampleMean ((meant ks c).map fun k : ℤ => (k:ℝ))) :
    let m := sampleMean ((meant ks c).map fun k : ℤ => (k:ℝ))
    (∃ q ∈ Set.Ioo (0:ℝ) 1, mle findroot1 findroot2 (ints ks) (counts c) = findroot1 (fun t => do return (← mleFunc t) - fin m) (fin q)) ∨
    ∃ q ∈ Set.Ioo (0:ℝ) 1, ∃ q' ∈ Set.Ioo (0:ℝ) 1,
      mle findroot1 findroot2 (ints ks) (counts c) = findroot2 (fun t => do return (← mleFunc t) - fin m) (fin q) (fin q') := by
  intro m
  have he := Real.exp_one_gt_d9
  have h1 : ¬ m = 1 := ne_of_gt hm
  by_cases h2 : Real.exp 1 < m
  · left
    obtain ⟨q, hq, e⟩ := approx_eval h2
    refine ⟨q, hq, ?_⟩
    simp only [mle, mean_ints hc hn, ok_bind, one_def, fin_eq, gt_iff, fin_lt]
    rw [if_neg h1, if_pos h2, e, ok_bind]
  · right
    have h3 : Real.exp 1 - 1 ≠ 0 := by linarith
    obtain ⟨r, hr, hmin, hle⟩ : ∃ r : ℝ, (r = 2 * (m - 1) ∨ r = 8264 / 10000) ∧ py.min [fin (2 * (m - 1)), fin (8264 / 10000)] = .ok (fin r) ∧
        r ≤ 8264 / 10000 := by
      by_cases h : (8264 / 10000 : ℝ) < 2 * (m - 1)
      · exact ⟨_, Or.inr rfl, by simp [py.min, h], le_rfl⟩
      · exact ⟨_, Or.inl rfl, by simp [py.min, h], not_lt.1 h⟩
    have h4 : m ≤ Real.exp 1 := not_lt.1 h2
    refine ⟨826 / 1000 / (Real.exp 1 - 1) * (m - 1), ⟨?_, ?_⟩, r, ⟨?_, by linarith⟩, ?_⟩
    · exact mul_pos (div_pos (by norm_num) (by linarith)) (by linarith)
    · rw [div_mul_eq_mul_div, div_lt_one (by linarith)]; nlinarith
    · rcases hr with rfl | rfl
      · linarith
      · norm_num
    · simp only [mle, mean_ints hc hn, ok_bind, one_def, fin_eq, gt_iff, fin_lt]
      rw [if_neg h1, if_neg h2]
      simp only [fin_sub, fin_div _ h3, ok_bind, fin_mul, ofNat_def]
      rw [show sampleMean ((meant ks c).map fun k : ℤ => (k:ℝ)) = m from rfl, hmin, ok_bind]

/-- C29, C31: with or without counts, unless all data are 1, the estimate (what is returned, if the search for a zero succeeds)
maximises the likelihood over the parameters between 0 and 1. -/
theorem mle_isMle (hf1 : SoundFinder findroot1) (hf2 : SoundFinderB findroot2) (hk : ∀ k ∈ ks, 1 ≤ k) (hc : Matching ks c)
    (hp : ∃ k ∈ meant ks c, k ≠ 1) {r : Num} (h : mle findroot1 findroot2 (ints ks) (counts c) = .ok r) :
    ∃ p : ℝ, r = fin p ∧ IsMle (fun p : ℝ => 0 < p ∧ p < 1) (fun p => nll (ints ks) (fin p) (counts c)) p := by
  have hm := mean_gt hk hp
  have hn : meant ks c ≠ [] := by obtain ⟨k0, hk0, _⟩ := hp; exact List.ne_nil_of_mem hk0
  set xs := (meant ks c).map fun k : ℤ => (k:ℝ) with hxs
  have hx : xs ≠ [] := by simpa [hxs] using hn
  have hroot : (do return (← mleFunc r) - fin (sampleMean xs) : M Num) = .ok 0 := by
    rcases mle_start (findroot1 := findroot1) (findroot2 := findroot2) hc hn hm with ⟨q, _, e⟩ | ⟨q, _, q', _, e⟩
    · exact hf1 _ _ _ (e ▸ h)
    · exact hf2 _ _ _ _ (e ▸ h)
  obtain ⟨p0, rfl, h0, hM⟩ := root_of hm hroot
  refine ⟨p0, rfl, isMle_of h0 (fun p hp => nll_eval hp.1 hp.2 hk hc) fun p hp => ?_⟩
  have e : ∀ p, -((meant ks c).map (l p)).sum = xs.length * (Real.log (-Real.log (1 - p)) - sampleMean xs * Real.log p) +
      ((meant ks c).map fun k : ℤ => Real.log (k:ℝ)).sum := fun p => by
    have h1 : ∀ k, l p k = (-Real.log (-Real.log (1 - p)) + Real.log p * k) + -Real.log (k:ℝ) := fun k => by rw [l]; ring
    have h2 : ((meant ks c).map fun k : ℤ => (-Real.log (-Real.log (1 - p)) + Real.log p * (k:ℝ))).sum =
        xs.length * -Real.log (-Real.log (1 - p)) + Real.log p * xs.sum := by
      have h3 := sum_map_affine (c := -Real.log (-Real.log (1 - p))) (d := Real.log p) xs id
      rw [hxs, List.map_map, List.map_id] at h3
      exact h3
    have h4 : ((meant ks c).map fun k : ℤ => -Real.log (k:ℝ)).sum = -((meant ks c).map fun k : ℤ => Real.log (k:ℝ)).sum := by
      rw [List.sum_neg]; simp [Function.comp_def]
    rw [List.map_congr_left fun k _ => h1 k, List.sum_map_add, h2, h4]
    have h5 : xs.sum = xs.length * sampleMean xs := by
      rw [sampleMean]; field_simp [(length_pos hx).ne']
    rw [h5]; ring
  rw [e, e]
  have := mul_le_mul_of_nonneg_left (min_at h0 hM hp) (show (0:ℝ) ≤ xs.length by positivity)
  linarith

/-- C31: there is such an estimate for all these data, and then the search can succeed. -/
theorem mle_exists (hk : ∀ k ∈ ks, 1 ≤ k) (hc : Matching ks c) (hp : ∃ k ∈ meant ks c, k ≠ 1) :
    ∃ findroot1 findroot2, SoundFinder findroot1 ∧ SoundFinderB findroot2 ∧
      ∃ p : ℝ, mle findroot1 findroot2 (ints ks) (counts c) = .ok (fin p) ∧
        IsMle (fun p : ℝ => 0 < p ∧ p < 1) (fun p => nll (ints ks) (fin p) (counts c)) p := by
  obtain ⟨f1, hf1, g1⟩ := exists_soundFinder
  obtain ⟨f2, hf2, g2⟩ := exists_soundFinderB
  have hm := mean_gt hk hp
  have hn : meant ks c ≠ [] := by obtain ⟨k0, hk0, _⟩ := hp; exact List.ne_nil_of_mem hk0
  set m := sampleMean ((meant ks c).map fun k : ℤ => (k:ℝ)) with hmdef
  have hroot : ∃ p ∈ Set.Ioo (0:ℝ) 1, Mn p = m := by
    -- `Mn (1 - exp (-s)) = (exp s - 1)/s`
    have hv : ∀ s : ℝ, 0 < s → Mn (1 - Real.exp (-s)) = (Real.exp s - 1) / s := fun s hs => by
      have h1 : Real.exp s ≠ 0 := (Real.exp_pos s).ne'
      rw [Mn, sub_sub_cancel, Real.log_exp, neg_neg, Real.exp_neg]
      field_simp
    have hc' : ContinuousOn (fun s : ℝ => Real.exp s - 1 - m * s) (Set.Icc (1 - 1 / m) (2 * m)) := by fun_prop
    have hm0 : 0 < m := by linarith
    have hpos : 0 < 1 - 1 / m := by rw [sub_pos, div_lt_one hm0]; exact hm
    have hle : 1 - 1 / m ≤ 2 * m := by have : 0 < 1 / m := by positivity
                                       linarith
    have h1 : Real.exp (1 - 1 / m) - 1 - m * (1 - 1 / m) ≤ 0 := by
      have := Real.add_one_le_exp (-(1 - 1 / m))
      rw [Real.exp_neg] at this
      have e : -(1 - 1 / m) + 1 = 1 / m := by ring
      rw [e, one_div, inv_le_inv₀ hm0 (Real.exp_pos _)] at this
      have e2 : m * (1 - 1 / m) = m - 1 := by field_simp
      rw [← one_div] at this
      rw [e2]; linarith
    have h2 : 0 ≤ Real.exp (2 * m) - 1 - m * (2 * m) := by
      have := Real.quadratic_le_exp_of_nonneg (show 0 ≤ 2 * m by linarith)
      nlinarith
    obtain ⟨s, hs, es⟩ := intermediate_value_Icc hle hc' ⟨h1, h2⟩
    have hs0 : 0 < s := hpos.trans_le hs.1
    refine ⟨1 - Real.exp (-s), ⟨?_, by linarith [Real.exp_pos (-s)]⟩, ?_⟩
    · have := Real.exp_lt_one_iff.2 (show -s < 0 by linarith)
      linarith
    · rw [hv s hs0, div_eq_iff hs0.ne']
      simp only at es
      linarith
  obtain ⟨p0, hp0, eM⟩ := hroot
  have hz : (do return (← mleFunc (fin p0)) - fin m : M Num) = .ok 0 := by
    have hL := L_pos hp0.1 hp0.2
    have h4 : (1 - p0) * Real.log (1 - p0) ≠ 0 := mul_ne_zero (by linarith [hp0.2]) (by linarith)
    have e : -p0 / ((1 - p0) * Real.log (1 - p0)) = m := by rw [← eM, Mn, mul_neg, div_neg, neg_div]
    simp only [mleFunc, one_def, fin_sub, neg_fin, log1p_eval hp0.2, ok_bind, fin_mul, fin_div _ h4, e, sub_self, pure_eq_ok, zero_def]
  refine ⟨f1, f2, hf1, hf2, ?_⟩
  obtain ⟨r, hr⟩ : ∃ r, mle f1 f2 (ints ks) (counts c) = .ok r := by
    rcases mle_start (findroot1 := f1) (findroot2 := f2) hc hn hm with ⟨q, _, e⟩ | ⟨q, _, q', _, e⟩
    · rw [e]; exact g1 _ _ _ hz
    · rw [e]; exact g2 _ _ _ _ hz
  obtain ⟨p, rfl, h⟩ := mle_isMle hf1 hf2 hk hc hp hr
  exact ⟨p, hr, h⟩

/-- C31 violated: from data that are all 1 the estimate is 0, a parameter for which `nll` returns nan. -/
theorem mle_ones (hk : ∀ k ∈ ks, k = 1) (hn : ks ≠ []) : mle findroot1 findroot2 (ints ks) none = .ok 0 ∧
    nll (ints ks) 0 none = .ok nan := by
  have h1 := mean_ints (ks := ks) (c := none) (fun _ h => by cases h) hn
  have hlen : (0:ℝ) < ks.length := by exact_mod_cast List.length_pos_iff.2 hn
  have h2 : sampleMean ((meant ks none).map fun k : ℤ => (k:ℝ)) = 1 := by
    have : (meant ks none).map (fun k : ℤ => (k:ℝ)) = ks.map fun _ => (1:ℝ) :=
      List.map_congr_left fun k hm => by rw [hk k hm, Int.cast_one]
    rw [this, sampleMean]
    simp [hlen.ne']
  rw [h2] at h1
  refine ⟨?_, ?_⟩
  · have h1' : stats.mean (ints ks) none = .ok (fin 1) := h1
    simp only [mle, h1', ok_bind, one_def, fin_eq, if_true, pure_eq_ok]
  · have hl : ∀ k ∈ ks, logpmf k (fin 0) = .ok nan := fun k hm => by
      rw [hk k hm]; exact (p_zero (k := 1) one_pos).2.1
    have hi : ∀ k ∈ ks, 1 ≤ k := fun k hm => by rw [hk k hm]
    obtain ⟨k, ks', rfl⟩ := List.exists_cons_of_ne_nil hn
    have hall : ∀ ks : List ℤ, (∀ k ∈ ks, k = 1) →
        ((ints ks).zip (List.replicate ks.length (1 : Num))).mapM (fun tc : Num × Num => do return tc.2 * (← logpmf (intOf tc.1) (fin 0))) =
        .ok (ks.map fun _ => nan) := by
      intro ks hk
      induction ks with
      | nil => rfl
      | cons a ks ih =>
        have ha : logpmf (intOf (ofInt a)) (fin 0) = .ok nan := by
          rw [intOf_ofInt, hk a List.mem_cons_self]; exact (p_zero (k := 1) one_pos).2.1
        rw [List.length_cons, List.replicate_succ, ints, List.map_cons, List.zip_cons_cons, List.mapM_cons, ha]
        have := ih fun k h => hk k (List.mem_cons_of_mem _ h)
        rw [ints] at this
        rw [ok_bind, pure_eq_ok, ok_bind, this]
        rfl
    have h3 : validateCounts (ints (k :: ks')) none true = .ok (some (List.replicate (k :: ks').length 1)) := by
      simp [validateCounts, ints]
    simp only [nll, zero_def, validateP_ok le_rfl zero_le_one, ok_bind, if_neg (not_not.2 (allInt hi)), h3, nllCounts, Option.getD_some, hall _ hk]
    rfl

/-- Non-vacuity: the data 3, 1 with the counts 2, 0 mean the data 3, 3. -/
example : Matching [3, 1] (some [2, 0]) ∧ (∀ k ∈ [(3:ℤ), 1], 1 ≤ k) ∧ ∃ k ∈ meant [3, 1] (some [2, 0]), k ≠ 1 := by
  refine ⟨fun l h => by cases h; rfl, by simp, 3, by simp [meant, replicated], by norm_num⟩

end Mpsci.logseries
