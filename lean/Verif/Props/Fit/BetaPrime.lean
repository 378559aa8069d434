import Verif.Lemmas.Fit.BetaPrime

/-! `betaprime.nll` and `betaprime.mle`. -/

namespace Mpsci.betaprime

open Classical Num Spec common Set

variable {a b s : ℝ} {xs : List ℝ} {findroot1 : (Num → M Num) → Num → M Num}
  {findroot2 : (Num → Num → M (Num × Num)) → Num × Num → M (Num × Num)}
  {findroot3 : (Num → Num → Num → M (Num × Num × Num)) → Num × Num × Num → M (Num × Num × Num)}

/-- C30 -/
theorem nll_spec (ha : 0 < a) (hb : 0 < b) (hs : 0 < s) :
    NllIsNegSum {x | 0 < x} (logpdf · (fin a) (fin b) (fin s)) (nll · (fin a) (fin b) (fin s)) :=
  nll_of (l := l a b s) (fun _ h => logpdf_l ha hb hs h) fun xs hx => by
    have h : (xs.map fin).mapM (fun x => logpdf x (fin a) (fin b) (fin s)) = .ok ((xs.map (l a b s)).map fin) :=
      mapM_logpdf fun x hm => logpdf_l ha hb hs (hx x hm)
    simp only [nll, validate_ok ha hb hs, ok_bind, zero_def, bounds hx, h, mp.fsum_fin, neg_fin, pure_eq_ok]

/-- C30: negative data are rejected. -/
theorem nll_rejects (ha : 0 < a) (hb : 0 < b) (hs : 0 < s) : NllRejects {x | 0 ≤ x} (nll · (fin a) (fin b) (fin s)) := by
  rintro xs ⟨x, hx, h⟩
  simp only [nll, validate_ok ha hb hs, ok_bind, zero_def, validateXBounds_low (badLow_weak.2 ⟨x, hx, not_le.1 h⟩)]
  rfl

/-- C30 -/
theorem nll_invalid (h : ¬ (0 < a ∧ 0 < b ∧ 0 < s)) (xs : List Num) : nll xs (fin a) (fin b) (fin s) = .error .valueError := by
  simp only [nll, validate_bad h]; rfl

/-- C31: negative data are rejected. -/
theorem mle_rejects (h : ∃ x ∈ xs, x < 0) (pa pb ps : Param) :
    mle findroot1 findroot2 findroot3 (xs.map fin) pa pb ps = .error .valueError := by
  simp only [mle, zero_def, validateXBounds_low (badLow_weak.2 h)]
  rfl

/-- C31: with all parameters fixed they are returned if they are positive, and rejected otherwise. -/
theorem mle_fixed (hx : Data xs) :
    (0 < a ∧ 0 < b ∧ 0 < s →
      mle findroot1 findroot2 findroot3 (xs.map fin) (.fixed (fin a)) (.fixed (fin b)) (.fixed (fin s)) = .ok (fin a, fin b, fin s)) ∧
    (¬ (0 < a ∧ 0 < b ∧ 0 < s) →
      mle findroot1 findroot2 findroot3 (xs.map fin) (.fixed (fin a)) (.fixed (fin b)) (.fixed (fin s)) = .error .valueError) := by
  simp only [mle, zero_def, bounds hx, ok_bind]
  exact ⟨fun h => validate_ok h.1 h.2.1 h.2.2, fun h => validate_bad h⟩

section
variable {pa pb ps : Param}

theorem mle_AB (hx : Data xs) (hpa : ∀ v, pa ≠ .fixed v) (hpb : ∀ v, pb ≠ .fixed v) (s : Num) :
    mle findroot1 findroot2 findroot3 (xs.map fin) pa pb (.fixed s) = mleAB findroot2 (xs.map fin) pa pb s := by
  cases pa <;> cases pb <;> first | exact absurd rfl (hpa _) | exact absurd rfl (hpb _) | simp only [mle, zero_def, bounds hx, ok_bind]
theorem mle_A (hx : Data xs) (hpa : ∀ v, pa ≠ .fixed v) (b s : Num) :
    mle findroot1 findroot2 findroot3 (xs.map fin) pa (.fixed b) (.fixed s) = mleA findroot1 (xs.map fin) pa b s := by
  cases pa <;> first | exact absurd rfl (hpa _) | simp only [mle, zero_def, bounds hx, ok_bind]
theorem mle_B (hx : Data xs) (hpb : ∀ v, pb ≠ .fixed v) (a s : Num) :
    mle findroot1 findroot2 findroot3 (xs.map fin) (.fixed a) pb (.fixed s) = mleB findroot1 (xs.map fin) a pb s := by
  cases pb <;> first | exact absurd rfl (hpb _) | simp only [mle, zero_def, bounds hx, ok_bind]
theorem mle_S (hx : Data xs) (hps : ∀ v, ps ≠ .fixed v) (a b : Num) :
    mle findroot1 findroot2 findroot3 (xs.map fin) (.fixed a) (.fixed b) ps = mleS findroot1 (xs.map fin) a b ps := by
  cases ps <;> first | exact absurd rfl (hps _) | simp only [mle, zero_def, bounds hx, ok_bind]
theorem mle_BS (hx : Data xs) (hpb : ∀ v, pb ≠ .fixed v) (hps : ∀ v, ps ≠ .fixed v) (a : Num) :
    mle findroot1 findroot2 findroot3 (xs.map fin) (.fixed a) pb ps = mleBS findroot1 (xs.map fin) a ps := by
  cases pb <;> cases ps <;> first | exact absurd rfl (hpb _) | exact absurd rfl (hps _) | simp only [mle, zero_def, bounds hx, ok_bind]
theorem mle_AS (hx : Data xs) (hpa : ∀ v, pa ≠ .fixed v) (hps : ∀ v, ps ≠ .fixed v) (b : Num) :
    mle findroot1 findroot2 findroot3 (xs.map fin) pa (.fixed b) ps = mleAS findroot1 (xs.map fin) b ps := by
  cases pa <;> cases ps <;> first | exact absurd rfl (hpa _) | exact absurd rfl (hps _) | simp only [mle, zero_def, bounds hx, ok_bind]
theorem mle_All (hx : Data xs) (hpa : ∀ v, pa ≠ .fixed v) (hpb : ∀ v, pb ≠ .fixed v) (hps : ∀ v, ps ≠ .fixed v) :
    mle findroot1 findroot2 findroot3 (xs.map fin) pa pb ps = mleAll findroot3 (xs.map fin) pa pb ps := by
  cases pa <;> cases pb <;> cases ps <;>
    first | exact absurd rfl (hpa _) | exact absurd rfl (hpb _) | exact absurd rfl (hps _) | simp only [mle, zero_def, bounds hx, ok_bind]

/-- C31: a fixed scale, or fixed `a`, `b`, that is not positive is rejected. -/
theorem mle_fixed_bad (hx : Data xs) {v : ℝ} (hv : v ≤ 0) (hpa : ∀ v, pa ≠ .fixed v) (hpb : ∀ v, pb ≠ .fixed v) (hps : ∀ v, ps ≠ .fixed v) :
    mle findroot1 findroot2 findroot3 (xs.map fin) pa pb (.fixed (fin v)) = .error .valueError ∧
    mle findroot1 findroot2 findroot3 (xs.map fin) pa (.fixed (fin v)) ps = .error .valueError ∧
    mle findroot1 findroot2 findroot3 (xs.map fin) (.fixed (fin v)) pb ps = .error .valueError := by
  rw [mle_AB hx hpa hpb, mle_AS hx hpa hps, mle_BS hx hpb hps, mleAB, mleAS, mleBS]
  simp only [one_def, validate_bad (a := 1) (b := 1) (s := v) fun h => absurd h.2.2 (not_lt.2 hv),
    validate_bad (a := 1) (b := v) (s := 1) fun h => absurd h.2.1 (not_lt.2 hv),
    validate_bad (a := v) (b := 1) (s := 1) fun h => absurd h.1 (not_lt.2 hv)]
  exact ⟨rfl, rfl, rfl⟩

/-- C31: with the scale fixed, if the root finder returns a zero with positive entries, the pair maximises the likelihood.
Missing: that the root finder converges, and to a positive pair. -/
theorem mle_fixedScale_partial (hr : SoundFinder2 findroot2) (hn : xs ≠ []) (hx : Data xs) (hs : 0 < s) (hpa : ∀ v, pa ≠ .fixed v)
    (hpb : ∀ v, pb ≠ .fixed v) {s' : Num} (h : mle findroot1 findroot2 findroot3 (xs.map fin) pa pb (.fixed (fin s)) = .ok (fin a, fin b, s'))
    (ha : 0 < a) (hb : 0 < b) : s' = fin s ∧
    IsMle (fun θ : ℝ × ℝ => 0 < θ.1 ∧ 0 < θ.2) (fun θ => nll (xs.map fin) (fin θ.1) (fin θ.2) (fin s)) (a, b) := by
  rw [mle_AB hx hpa hpb] at h
  simp only [mleAB, one_def, validate_ok one_pos one_pos hs, ok_bind, meanLog1p_eval hn hx hs, meanLog_eval hn hx, mp.log_pos hs] at h
  obtain ⟨r, h1, h2⟩ := ok_of_bind h
  obtain ⟨e1, e2⟩ := Prod.mk.inj (Except.ok.inj h2)
  obtain ⟨e2, e3⟩ := Prod.mk.inj e2
  have h3 := hr _ _ _ h1
  simp only [e1, e2, fin_add, mp.digamma_pos ha, mp.digamma_pos hb, mp.digamma_pos (add_pos ha hb), ok_bind, fin_sub, pure_eq_ok] at h3
  obtain ⟨h4, h5⟩ := Prod.mk.inj (Except.ok.inj h3)
  have h4' := Num.fin.inj h4
  have h5' := Num.fin.inj h5
  refine ⟨e3.symm, isMle_of (est := (a, b)) ⟨ha, hb⟩ (fun θ h => nll_eval hn hx h.1 h.2 hs) fun θ h => ?_⟩
  exact mul_le_mul_of_nonneg_left (N_minAB ha hb (by linarith) (by linarith) h.1 h.2) (length_pos hn).le

/-- C31: with `b` and the scale fixed, if the root finder returns a positive zero, the estimate of `a` maximises the likelihood.
Missing: that the root finder converges, and to a positive number. -/
theorem mle_fixedBScale_partial (hr : SoundFinder findroot1) (hn : xs ≠ []) (hx : Data xs) (hb : 0 < b) (hs : 0 < s) (hpa : ∀ v, pa ≠ .fixed v)
    {b' s' : Num} (h : mle findroot1 findroot2 findroot3 (xs.map fin) pa (.fixed (fin b)) (.fixed (fin s)) = .ok (fin a, b', s'))
    (ha : 0 < a) : b' = fin b ∧ s' = fin s ∧ IsMle (fun a : ℝ => 0 < a) (fun a => nll (xs.map fin) (fin a) (fin b) (fin s)) a := by
  rw [mle_A hx hpa] at h
  simp only [mleA, one_def, validate_ok one_pos hb hs, ok_bind, meanLog1p_eval hn hx hs, meanLog_eval hn hx, mp.log_pos hs] at h
  obtain ⟨r, h1, h2⟩ := ok_of_bind h
  obtain ⟨e1, e2⟩ := Prod.mk.inj (Except.ok.inj h2)
  obtain ⟨e2, e3⟩ := Prod.mk.inj e2
  have h3 := hr _ _ _ h1
  simp only [e1, fin_add, mp.digamma_pos ha, mp.digamma_pos (add_pos ha hb), ok_bind, fin_sub, pure_eq_ok] at h3
  have h4 := Num.fin.inj (Except.ok.inj h3)
  refine ⟨e2.symm, e3.symm, isMle_of ha (fun a h => nll_eval hn hx h hb hs) fun a' h => ?_⟩
  exact mul_le_mul_of_nonneg_left (N_minA ha hb (by linarith) h) (length_pos hn).le

/-- C31: with `a` and the scale fixed, if the root finder returns a positive zero, the estimate of `b` maximises the likelihood.
Missing: that the root finder converges, and to a positive number. -/
theorem mle_fixedAScale_partial (hr : SoundFinder findroot1) (hn : xs ≠ []) (hx : Data xs) (ha : 0 < a) (hs : 0 < s) (hpb : ∀ v, pb ≠ .fixed v)
    {a' s' : Num} (h : mle findroot1 findroot2 findroot3 (xs.map fin) (.fixed (fin a)) pb (.fixed (fin s)) = .ok (a', fin b, s'))
    (hb : 0 < b) : a' = fin a ∧ s' = fin s ∧ IsMle (fun b : ℝ => 0 < b) (fun b => nll (xs.map fin) (fin a) (fin b) (fin s)) b := by
  rw [mle_B hx hpb] at h
  simp only [mleB, one_def, validate_ok ha one_pos hs, ok_bind, meanLog1p_eval hn hx hs] at h
  obtain ⟨r, h1, h2⟩ := ok_of_bind h
  obtain ⟨e1, e2⟩ := Prod.mk.inj (Except.ok.inj h2)
  obtain ⟨e2, e3⟩ := Prod.mk.inj e2
  have h3 := hr _ _ _ h1
  simp only [e2, fin_add, mp.digamma_pos hb, mp.digamma_pos (add_pos ha hb), ok_bind, fin_sub, pure_eq_ok] at h3
  have h4 := Num.fin.inj (Except.ok.inj h3)
  refine ⟨e1.symm, e3.symm, isMle_of hb (fun b h => nll_eval hn hx ha h hs) fun b' h => ?_⟩
  exact mul_le_mul_of_nonneg_left (N_minB ha hb (by linarith) h) (length_pos hn).le

/-- C31: with `a` and `b` fixed, if the root finder returns a positive zero, the estimate of the scale maximises the likelihood.
Missing: that the root finder converges, and to a positive number. -/
theorem mle_fixedAB_partial (hr : SoundFinder findroot1) (hn : xs ≠ []) (hx : Data xs) (ha : 0 < a) (hb : 0 < b) (hps : ∀ v, ps ≠ .fixed v)
    {a' b' : Num} (h : mle findroot1 findroot2 findroot3 (xs.map fin) (.fixed (fin a)) (.fixed (fin b)) ps = .ok (a', b', fin s))
    (hs : 0 < s) : a' = fin a ∧ b' = fin b ∧ IsMle (fun s : ℝ => 0 < s) (fun s => nll (xs.map fin) (fin a) (fin b) (fin s)) s := by
  rw [mle_S hx hps] at h
  simp only [mleS, one_def, validate_ok ha hb one_pos, ok_bind] at h
  obtain ⟨r, h1, h2⟩ := ok_of_bind h
  obtain ⟨e1, e2⟩ := Prod.mk.inj (Except.ok.inj h2)
  obtain ⟨e2, e3⟩ := Prod.mk.inj e2
  have h3 := hr _ _ _ h1
  simp only [e3, meanRatio_eval hn hx hs, fin_add, ok_bind, fin_mul, fin_sub, pure_eq_ok] at h3
  have h4 := Num.fin.inj (Except.ok.inj h3)
  refine ⟨e1.symm, e2.symm, isMle_of hs (fun s h => nll_eval hn hx ha hb h) fun s' h => ?_⟩
  exact mul_le_mul_of_nonneg_left (N_minS hn hx ha hb hs (by linarith) h) (length_pos hn).le

/-- C31: with `a` fixed, if the root finder returns a positive scale, the estimate of `b` is positive, it maximises the likelihood for this
scale, and the scale maximises the likelihood for this `b`.  Missing: that the root finder converges, and to a positive number, and that
no other pair is better. -/
theorem mle_fixedA_partial (hr : SoundFinder findroot1) (hn : xs ≠ []) (hx : Data xs) (ha : 0 < a) (hpb : ∀ v, pb ≠ .fixed v)
    (hps : ∀ v, ps ≠ .fixed v) {a' b' : Num}
    (h : mle findroot1 findroot2 findroot3 (xs.map fin) (.fixed (fin a)) pb ps = .ok (a', b', fin s)) (hs : 0 < s) : a' = fin a ∧
    ∃ b, b' = fin b ∧ IsMle (fun b : ℝ => 0 < b) (fun b => nll (xs.map fin) (fin a) (fin b) (fin s)) b ∧
      IsMle (fun s : ℝ => 0 < s) (fun s => nll (xs.map fin) (fin a) (fin b) (fin s)) s := by
  rw [mle_BS hx hpb hps] at h
  simp only [mleBS, one_def, validate_ok ha one_pos one_pos, ok_bind] at h
  obtain ⟨r, h1, h2⟩ := ok_of_bind h
  obtain ⟨m, hm2, h3⟩ := ok_of_bind h2
  obtain ⟨q, hq3, h4⟩ := ok_of_bind h3
  obtain ⟨e1, e3⟩ := Prod.mk.inj (Except.ok.inj h4)
  obtain ⟨e2, rfl⟩ := Prod.mk.inj e3
  rw [meanRatio_eval hn hx hs] at hm2
  obtain rfl := Except.ok.inj hm2
  obtain ⟨m0, m1'⟩ := mr_mem hn hx hs
  rw [fin_div _ m0.ne'] at hq3
  obtain rfl := Except.ok.inj hq3
  simp only [fin_sub, fin_mul] at e2
  set b := a * (1 / mr xs s - 1) with hb'
  have hb : 0 < b := mul_pos ha (sub_pos.2 ((one_lt_div m0).2 m1'))
  have hab : a / mr xs s = a + b := by rw [hb']; field_simp; ring
  have h5 := hr _ _ _ h1
  simp only [meanRatio_eval hn hx hs, meanLog1p_eval hn hx hs, ok_bind, fin_div _ m0.ne', fin_sub, fin_mul, ← hb', hab, mp.digamma_pos hb,
    mp.digamma_pos (add_pos ha hb), fin_add, pure_eq_ok] at h5
  have h6 := Num.fin.inj (Except.ok.inj h5)
  have h7 : a = (a + b) * mr xs s := by rw [← hab]; field_simp
  refine ⟨e1.symm, b, e2.symm, isMle_of hb (fun b h => nll_eval hn hx ha h hs) fun b' h => ?_,
    isMle_of hs (fun s h => nll_eval hn hx ha hb h) fun s' h => ?_⟩
  · exact mul_le_mul_of_nonneg_left (N_minB ha hb (by linarith) h) (length_pos hn).le
  · exact mul_le_mul_of_nonneg_left (N_minS hn hx ha hb hs h7 h) (length_pos hn).le

/-- C31: with `b` fixed, if the root finder returns a positive scale, the estimate of `a` is positive, it maximises the likelihood for this
scale, and the scale maximises the likelihood for this `a`.  Missing: that the root finder converges, and to a positive number, and that
no other pair is better. -/
theorem mle_fixedB_partial (hr : SoundFinder findroot1) (hn : xs ≠ []) (hx : Data xs) (hb : 0 < b) (hpa : ∀ v, pa ≠ .fixed v)
    (hps : ∀ v, ps ≠ .fixed v) {a' b' : Num}
    (h : mle findroot1 findroot2 findroot3 (xs.map fin) pa (.fixed (fin b)) ps = .ok (a', b', fin s)) (hs : 0 < s) : b' = fin b ∧
    ∃ a, a' = fin a ∧ IsMle (fun a : ℝ => 0 < a) (fun a => nll (xs.map fin) (fin a) (fin b) (fin s)) a ∧
      IsMle (fun s : ℝ => 0 < s) (fun s => nll (xs.map fin) (fin a) (fin b) (fin s)) s := by
  rw [mle_AS hx hpa hps] at h
  simp only [mleAS, one_def, validate_ok one_pos hb one_pos, ok_bind] at h
  obtain ⟨r, h1, h2⟩ := ok_of_bind h
  obtain ⟨m, hm2, h3⟩ := ok_of_bind h2
  obtain ⟨q, hq3, h4⟩ := ok_of_bind h3
  obtain ⟨e1, e3⟩ := Prod.mk.inj (Except.ok.inj h4)
  obtain ⟨e2, rfl⟩ := Prod.mk.inj e3
  rw [meanRatio_eval hn hx hs] at hm2
  obtain rfl := Except.ok.inj hm2
  obtain ⟨m0, m1'⟩ := mr_mem hn hx hs
  have hm : 1 - mr xs s ≠ 0 := by linarith
  rw [fin_sub, fin_div _ hm] at hq3
  obtain rfl := Except.ok.inj hq3
  simp only [fin_mul] at e1
  set a := b * (mr xs s / (1 - mr xs s)) with ha'
  have ha : 0 < a := mul_pos hb (div_pos m0 (by linarith))
  have hab : b / (1 - mr xs s) = a + b := by rw [ha']; field_simp; ring
  have h5 := hr _ _ _ h1
  simp only [meanRatio_eval hn hx hs, meanLog1p_eval hn hx hs, meanLog_eval hn hx, ok_bind, fin_sub, fin_div _ hm, fin_mul, ← ha', hab,
    mp.digamma_pos ha, mp.digamma_pos (add_pos ha hb), mp.log_pos hs, fin_add, pure_eq_ok] at h5
  have h6 := Num.fin.inj (Except.ok.inj h5)
  have h7 : a = (a + b) * mr xs s := by rw [← hab, ha']; field_simp
  refine ⟨e2.symm, a, e1.symm, isMle_of ha (fun a h => nll_eval hn hx h hb hs) fun a' h => ?_,
    isMle_of hs (fun s h => nll_eval hn hx ha hb h) fun s' h => ?_⟩
  · exact mul_le_mul_of_nonneg_left (N_minA ha hb (by linarith) h) (length_pos hn).le
  · exact mul_le_mul_of_nonneg_left (N_minS hn hx ha hb hs h7 h) (length_pos hn).le

/-- C31: with all parameters free, if the root finder returns a zero with positive entries, the pair `(a, b)` maximises the likelihood for this
scale, and the scale maximises the likelihood for this pair.  Missing: that the root finder converges, and to positive numbers, and that
no other triple is better. -/
theorem mle_free_partial (hr : SoundFinder3 findroot3) (hn : xs ≠ []) (hx : Data xs) (hpa : ∀ v, pa ≠ .fixed v) (hpb : ∀ v, pb ≠ .fixed v)
    (hps : ∀ v, ps ≠ .fixed v) (h : mle findroot1 findroot2 findroot3 (xs.map fin) pa pb ps = .ok (fin a, fin b, fin s))
    (ha : 0 < a) (hb : 0 < b) (hs : 0 < s) :
    IsMle (fun θ : ℝ × ℝ => 0 < θ.1 ∧ 0 < θ.2) (fun θ => nll (xs.map fin) (fin θ.1) (fin θ.2) (fin s)) (a, b) ∧
    IsMle (fun s : ℝ => 0 < s) (fun s => nll (xs.map fin) (fin a) (fin b) (fin s)) s := by
  rw [mle_All hx hpa hpb hps] at h
  simp only [mleAll, meanLog_eval hn hx, ok_bind] at h
  have h3 := hr _ _ _ h
  simp only [meanLog1p_eval hn hx hs, meanRatio_eval hn hx hs, fin_add, mp.digamma_pos ha, mp.digamma_pos hb, mp.digamma_pos (add_pos ha hb),
    mp.log_pos hs, ok_bind, fin_sub, fin_mul, pure_eq_ok] at h3
  obtain ⟨h4, h5⟩ := Prod.mk.inj (Except.ok.inj h3)
  obtain ⟨h5, h6⟩ := Prod.mk.inj h5
  have h4' := Num.fin.inj h4
  have h5' := Num.fin.inj h5
  have h6' := Num.fin.inj h6
  refine ⟨isMle_of (est := (a, b)) ⟨ha, hb⟩ (fun θ h => nll_eval hn hx h.1 h.2 hs) fun θ h => ?_,
    isMle_of hs (fun s h => nll_eval hn hx ha hb h) fun s' h => ?_⟩
  · exact mul_le_mul_of_nonneg_left (N_minAB ha hb (by linarith) (by linarith) h.1 h.2) (length_pos hn).le
  · exact mul_le_mul_of_nonneg_left (N_minS hn hx ha hb hs (by linarith) h) (length_pos hn).le

end

/-- Non-vacuity: data, and root finders -/
example : Data [1 / 4, 2] ∧ (∃ f, SoundFinder f) ∧ (∃ f, SoundFinder2 f) ∧ ∃ f, SoundFinder3 f := by
  refine ⟨?_, exists_soundFinder.imp fun _ h => h.1, exists_soundFinder2.imp fun _ h => h.1, exists_soundFinder3.imp fun _ h => h.1⟩
  intro x hx; simp at hx; rcases hx with rfl | rfl <;> norm_num

end Mpsci.betaprime
