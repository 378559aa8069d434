import Verif.Lemmas.Fit.Beta

/-! `beta.nll`, `beta.mle` and `beta.mom`. -/

namespace Mpsci.beta

open Classical Num Spec common Set betaD

variable {a b : ℝ} {xs : List ℝ} {findroot1 : (Num → M Num) → Num → M Num}
  {findroot2 : (Num → Num → M (Num × Num)) → Num × Num → M (Num × Num)}

/-- C30 -/
theorem nll_spec (ha : 0 < a) (hb : 0 < b) : NllIsNegSum {x | 0 < x ∧ x < 1} (logpdf · (fin a) (fin b)) (nll · (fin a) (fin b)) :=
  nll_of (l := l a b) (fun _ h => logpdf_mid ha hb h.1 h.2) fun xs hx => by rw [nll_eval hx ha hb, sum_l]

/-- C30 -/
theorem nll_rejects (ha : 0 < a) (hb : 0 < b) : NllRejects {x | 0 < x ∧ x < 1} (nll · (fin a) (fin b)) := by
  rintro xs ⟨x, hx, h⟩
  simp only [nll, validate_ok ha hb, ok_bind, zero_def, one_def, bounds_bad fun hd : Data xs => h (hd x hx)]
  rfl

/-- C30 -/
theorem nll_invalid (h : ¬ (0 < a ∧ 0 < b)) (xs : List Num) : nll xs (fin a) (fin b) = .error .valueError := by
  simp only [nll, validate_bad h]; rfl

/-- C31, C32: data outside the open interval are rejected. -/
theorem fit_rejects (h : ∃ x ∈ xs, ¬ (0 < x ∧ x < 1)) (pa pb : Param) : mle findroot1 findroot2 (xs.map fin) pa pb = .error .valueError ∧
    mom (xs.map fin) = .error .valueError := by
  obtain ⟨x, hx, h⟩ := h
  simp only [mle, mom, zero_def, one_def, bounds_bad fun hd : Data xs => h (hd x hx)]
  exact ⟨rfl, rfl⟩

/-- C31, C32: without data they divide by zero. -/
theorem fit_empty (pa pb : Param) : mle findroot1 findroot2 [] pa pb = .error .zeroDivision ∧ mom [] = .error .zeroDivision := by
  have h := bounds (xs := []) (by simp [Data])
  simp only [List.map_nil] at h
  simp only [mle, mom, zero_def, one_def, h, ok_bind, mean_nil]
  exact ⟨rfl, rfl⟩

/-- C31: fixed parameters must be positive. -/
theorem mle_fixed_bad (hn : xs ≠ []) (hx : Data xs) {v : ℝ} (hv : v ≤ 0) (p : Param) :
    mle findroot1 findroot2 (xs.map fin) (.fixed (fin v)) p = .error .valueError ∧
    mle findroot1 findroot2 (xs.map fin) p (.fixed (fin v)) = .error .valueError := by
  have h : checkFixed (.fixed (fin v)) = .error .valueError := by simp only [checkFixed, zero_def, fin_le, hv, if_true]; rfl
  have h2 : checkFixed p = .ok () ∨ checkFixed p = .error .valueError := by
    cases p with
    | none => exact Or.inl rfl
    | initial w => exact Or.inl rfl
    | fixed w => simp only [checkFixed]; split_ifs; exacts [Or.inr rfl, Or.inl rfl]
  simp only [mle, zero_def, one_def, bounds hx, ok_bind, mean_fin hn, h]
  refine ⟨rfl, ?_⟩
  rcases h2 with h2 | h2 <;> simp only [h2] <;> rfl

theorem check_free {p : Param} (hp : ∀ v, p ≠ .fixed v) : checkFixed p = .ok () := by
  cases p with
  | none => rfl
  | initial w => rfl
  | fixed w => exact absurd rfl (hp w)
theorem check_fixed {v : ℝ} (hv : 0 < v) : checkFixed (.fixed (fin v)) = .ok () := by
  simp only [checkFixed, zero_def, fin_le, hv.not_ge, if_false]; rfl

/-- C31: with both parameters fixed they are returned. -/
theorem mle_fixed (hn : xs ≠ []) (hx : Data xs) (ha : 0 < a) (hb : 0 < b) :
    mle findroot1 findroot2 (xs.map fin) (.fixed (fin a)) (.fixed (fin b)) = .ok (fin a, fin b) := by
  simp only [mle, zero_def, one_def, bounds hx, ok_bind, mean_fin hn, check_fixed ha, check_fixed hb, pure_eq_ok]

/-- C31: with `b` fixed, if the root finder returns a positive zero, the estimate of `a` maximises the likelihood.
Missing: that the root finder converges, and to a positive number. -/
theorem mle_fixedB_partial (hr : SoundFinder findroot1) (hn : xs ≠ []) (hx : Data xs) (hb : 0 < b) {pa : Param} (hpa : ∀ v, pa ≠ .fixed v)
    {b' : Num} (h : mle findroot1 findroot2 (xs.map fin) pa (.fixed (fin b)) = .ok (fin a, b')) (ha : 0 < a) :
    b' = fin b ∧ IsMle (fun a : ℝ => 0 < a) (fun a => nll (xs.map fin) (fin a) (fin b)) a := by
  have e : mle findroot1 findroot2 (xs.map fin) pa (.fixed (fin b)) = (do
      return (← mleOne findroot1 (xs.map fin) (fin (sampleMean xs)) pa (fin b), fin b)) := by
    cases pa with
    | fixed v => exact absurd rfl (hpa v)
    | none => simp only [mle, zero_def, one_def, bounds hx, ok_bind, mean_fin hn, check_free hpa, check_fixed hb]
    | initial v => simp only [mle, zero_def, one_def, bounds hx, ok_bind, mean_fin hn, check_free hpa, check_fixed hb]
  rw [e] at h
  obtain ⟨r, h1, h2⟩ := ok_of_bind h
  obtain ⟨rfl, rfl⟩ := Prod.mk.inj (Except.ok.inj h2)
  have h3 := mleOne_sound hr hx hb h1 ha
  exact ⟨rfl, isMle_of ha (fun _ ha => nll_eval hx ha hb) fun a' ha' => L_minA ha hb h3 ha'⟩

/-- C31: with `a` fixed, if the root finder returns a positive zero, the estimate of `b` maximises the likelihood.
Missing: that the root finder converges, and to a positive number. -/
theorem mle_fixedA_partial (hr : SoundFinder findroot1) (hn : xs ≠ []) (hx : Data xs) (ha : 0 < a) {pb : Param} (hpb : ∀ v, pb ≠ .fixed v)
    {a' : Num} (h : mle findroot1 findroot2 (xs.map fin) (.fixed (fin a)) pb = .ok (a', fin b)) (hb : 0 < b) :
    a' = fin a ∧ IsMle (fun b : ℝ => 0 < b) (fun b => nll (xs.map fin) (fin a) (fin b)) b := by
  have e1 : (xs.map fin).map (fun t => fin 1 - t) = (xs.map fun x => 1 - x).map fin := by simp [List.map_map, Function.comp_def]
  have e : mle findroot1 findroot2 (xs.map fin) (.fixed (fin a)) pb = (do
      return (fin a, ← mleOne findroot1 ((xs.map fun x => 1 - x).map fin) (fin (1 - sampleMean xs)) pb (fin a))) := by
    cases pb with
    | fixed v => exact absurd rfl (hpb v)
    | none => simp only [mle, zero_def, one_def, bounds hx, ok_bind, mean_fin hn, check_free hpb, check_fixed ha, e1, fin_sub]
    | initial v => simp only [mle, zero_def, one_def, bounds hx, ok_bind, mean_fin hn, check_free hpb, check_fixed ha, e1, fin_sub]
  rw [e] at h
  obtain ⟨r, h1, h2⟩ := ok_of_bind h
  obtain ⟨rfl, rfl⟩ := Prod.mk.inj (Except.ok.inj h2)
  have h3 := mleOne_sound hr (compl hx) ha h1 hb
  have e2 : S1 (xs.map fun x => 1 - x) = S2 xs := by simp only [S1, S2, List.map_map, Function.comp_def]
  rw [e2, List.length_map, add_comm] at h3
  exact ⟨rfl, isMle_of hb (fun _ hb => nll_eval hx ha hb) fun b' hb' => L_minB ha hb h3 hb'⟩

/-- C31: with both parameters free, if the root finder returns a zero with positive entries, the pair maximises the likelihood.
Missing: that the root finder converges, and to a positive pair. -/
theorem mle_free_partial (hr : SoundFinder2 findroot2) (hn : xs ≠ []) (hx : Data xs) {pa pb : Param} (hpa : ∀ v, pa ≠ .fixed v)
    (hpb : ∀ v, pb ≠ .fixed v) (h : mle findroot1 findroot2 (xs.map fin) pa pb = .ok (fin a, fin b)) (ha : 0 < a) (hb : 0 < b) :
    IsMle (fun θ : ℝ × ℝ => 0 < θ.1 ∧ 0 < θ.2) (fun θ => nll (xs.map fin) (fin θ.1) (fin θ.2)) (a, b) := by
  have e : mle findroot1 findroot2 (xs.map fin) pa pb = mleBoth findroot2 (xs.map fin) (fin (sampleMean xs)) pa pb := by
    cases pa <;> cases pb <;> first | exact absurd rfl (hpa _) | exact absurd rfl (hpb _) | 
      (simp only [mle, zero_def, one_def, bounds hx, ok_bind, mean_fin hn, check_free hpa, check_free hpb])
  rw [e] at h
  simp only [mleBoth, logs hx, log1ms hx, ok_bind, mp.fsum_fin, len_fin] at h
  obtain ⟨d, -, h⟩ := ok_of_bind h
  obtain ⟨d', -, h⟩ := ok_of_bind h
  have h1 := hr _ _ _ h
  simp only [mleFunc_eval ha hb, mleFunc_eval hb ha, ok_bind, pure_eq_ok] at h1
  obtain ⟨h2, h3⟩ := Prod.mk.inj (Except.ok.inj h1)
  have h2' : (xs.map Real.log).sum - xs.length * (-psi (a + b) + psi a) = 0 := Num.fin.inj h2
  have h3' : (xs.map fun x => Real.log (1 - x)).sum - xs.length * (-psi (b + a) + psi b) = 0 := Num.fin.inj h3
  rw [add_comm b a] at h3'
  refine isMle_of (est := (a, b)) ⟨ha, hb⟩ (fun θ h => nll_eval hx h.1 h.2) fun θ h => L_min ha hb ?_ ?_ h.1 h.2
  · rw [S1]; linarith
  · rw [S2]; linarith

/-- C32: unless all data are equal, the estimates of `mom` are admissible and reproduce the mean and the variance. -/
theorem mom_matches (hx : Data xs) (hv : ¬ ∃ c, ∀ x ∈ xs, x = c) : ∃ a b : ℝ, mom (xs.map fin) = .ok (fin a, fin b) ∧
    0 < a ∧ 0 < b ∧ MatchesMoments xs (mean (fin a) (fin b)) (var (fin a) (fin b)) := by
  have hn : xs ≠ [] := by rintro rfl; exact hv ⟨0, by simp⟩
  obtain ⟨m0, m1⟩ := mean_mem hn hx
  have h0 : 0 < sampleVar xs := (sampleVar_nonneg xs).lt_of_ne' (mt (sampleVar_eq_zero hn).1 hv)
  have hl := length_pos hn
  have e := sampleVar_eq hn
  set m := sampleMean xs with hm
  set q := sampleMean (xs.map fun x => x ^ 2) with hq
  have hlt : q < m := by
    rw [hm, hq, sampleMean, sampleMean, List.length_map]
    refine div_lt_div_of_pos_right ?_ hl
    clear_value m q
    clear e h0 hl hv m0 m1 hm hq m q
    induction xs with
    | nil => exact absurd rfl hn
    | cons x t ih =>
      obtain ⟨h1, h2⟩ := hx x (by simp)
      have h3 : x ^ 2 < x := by nlinarith
      by_cases ht : t = []
      · subst ht; simpa using h3
      · have := ih (fun y hy => hx y (by simp [hy])) ht
        simp only [List.map_cons, List.sum_cons]; linarith
  have hd : q - m ^ 2 = sampleVar xs := by rw [e]
  have hd0 : q - m ^ 2 ≠ 0 := by rw [hd]; exact h0.ne'
  have hc : 0 < (m - q) / (q - m ^ 2) := div_pos (by linarith) (by rw [hd]; exact h0)
  have ha : 0 < m * ((m - q) / (q - m ^ 2)) := mul_pos m0 hc
  have hb : 0 < (1 - m) * ((m - q) / (q - m ^ 2)) := mul_pos (by linarith) hc
  refine ⟨_, _, ?_, ha, hb, ?_, ?_⟩
  · simp only [mom, zero_def, one_def, bounds hx, mean_fin hn, mean_sq_fin hn, ok_bind, ← hm, ← hq, mp.ipow_fin, fin_sub, fin_div _ hd0,
      fin_mul, pure_eq_ok]
  · rw [mean_eval ha hb]; congr 2
    rw [← add_mul, mul_div_mul_right _ _ hc.ne', add_sub_cancel, div_one]
  · rw [var_eval ha hb, ← hd]; congr 2
    have e1 : m * ((m - q) / (q - m ^ 2)) + (1 - m) * ((m - q) / (q - m ^ 2)) = (m - q) / (q - m ^ 2) := by ring
    have e2 : (m - q) / (q - m ^ 2) + 1 = (m - m ^ 2) / (q - m ^ 2) := by field_simp; ring
    have h3 : m - m ^ 2 ≠ 0 := by have : 0 < m * (1 - m) := mul_pos m0 (by linarith); linarith
    rw [e1, e2]
    have h4 : m - q ≠ 0 := by linarith
    have h5 : 1 - m ≠ 0 := by linarith
    field_simp

/-- C32: when all data are equal, `mom` divides by zero. -/
theorem mom_equal (hn : xs ≠ []) {c : ℝ} (h0 : 0 < c) (h1 : c < 1) (h : ∀ x ∈ xs, x = c) : mom (xs.map fin) = .error .zeroDivision := by
  have hx : Data xs := fun x hm => by rw [h x hm]; exact ⟨h0, h1⟩
  have e := (sampleVar_eq_zero hn).2 ⟨c, h⟩
  rw [← sampleVar_eq hn] at e
  simp only [mom, zero_def, one_def, bounds hx, mean_fin hn, mean_sq_fin hn, ok_bind, mp.ipow_fin, fin_sub, e, fin_div_zero]
  rfl

/-- Non-vacuity: data, and root finders -/
example : Data [1 / 4, 1 / 2] ∧ (¬ ∃ c, ∀ x ∈ [(1 / 4 : ℝ), 1 / 2], x = c) ∧ (∃ f, SoundFinder f) ∧ ∃ f, SoundFinder2 f := by
  refine ⟨?_, ?_, exists_soundFinder.imp fun _ h => h.1, exists_soundFinder2.imp fun _ h => h.1⟩
  · intro x hx; simp at hx; rcases hx with rfl | rfl <;> norm_num
  · rintro ⟨c, h⟩; have h1 := h (1 / 4) (by simp); have h2 := h (1 / 2) (by simp); norm_num [← h1] at h2

end Mpsci.beta
