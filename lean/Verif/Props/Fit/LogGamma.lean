import Verif.Lemmas.Fit.LogGamma

/-! `loggamma.nll` and `loggamma.mle`. -/

namespace Mpsci.loggamma

open Classical Num Spec common Set

variable {k s : ℝ} {xs : List ℝ} {findroot : (Num → M Num) → Num → Num → M Num} {findroot1 : (Num → M Num) → Num → M Num}
  {findroot2 : (Num → Num → M (Num × Num)) → Num × Num → M (Num × Num)}

/-- C30 -/
theorem nll_spec (hk : 0 < k) (hs : 0 < s) : NllIsNegSum univ (logpdf · (fin k) (fin s)) (nll · (fin k) (fin s)) :=
  nll_of (l := l k s) (fun x _ => logpdf_l hk hs x) fun xs _ => nll_eval hk hs xs

/-- C30 -/
theorem nll_invalid (h : ¬ (0 < k ∧ 0 < s)) (xs : List Num) : nll xs (fin k) (fin s) = .error .valueError := by
  simp only [nll, validate_bad h]; rfl

/-- C31: with both parameters fixed they are validated and returned. -/
theorem mle_fixed (xs : List ℝ) (k s : ℝ) : mle findroot findroot1 findroot2 (xs.map fin) (.fixed (fin k)) (.fixed (fin s)) =
    if 0 < k ∧ 0 < s then .ok (fin k, fin s) else .error .valueError := by
  simp only [mle, bounds, ok_bind]
  split_ifs with h
  · exact validate_ok h.1 h.2
  · exact validate_bad h

theorem isMle_shape (hn : xs ≠ []) (hs : 0 < s) (hk : 0 < k) (h : psi k = sampleMean (xs.map fun x => x / s)) :
    IsMle (fun k : ℝ => 0 < k) (fun k => nll (xs.map fin) (fin k) (fin s)) k :=
  isMle_of hk (fun _ hk => nll_eval hk hs xs) fun k' hk' => by
    rw [nll_shape hn, nll_shape hn]
    exact add_le_add_left (mul_le_mul_of_nonneg_left (shape_min hk h hk') (by positivity)) _

theorem mle_scale_eval (hn : xs ≠ []) (hs : 0 < s) {kp : Param} (hkp : ∀ x, kp ≠ .fixed x) :
    mle findroot findroot1 findroot2 (xs.map fin) kp (.fixed (fin s)) = (do
    return (← fun_.digammainv findroot (fin (sampleMean (xs.map fun x => x / s))), fin s)) := by
  have h : (xs.map fin).mapM (fun t => t /. fin s) = .ok ((xs.map fun x => x / s).map fin) := mapM_logpdf fun x _ => fin_div _ hs.ne'
  have hv : validateParams 1 (fin s) = .ok (fin 1, fin s) := validate_ok one_pos hs
  have hm := mean_fin (xs := xs.map fun x => x / s) (by simpa using hn)
  cases kp with
  | fixed x => exact absurd rfl (hkp x)
  | none => simp only [mle, bounds, ok_bind, hv, h, hm]
  | initial x => simp only [mle, bounds, ok_bind, hv, h, hm]

/-- C31: with `theta` fixed and a root finder that finds the zero in a bracket, the estimate of `k` maximises the likelihood.
Missing: the values for which the bracket of `digammainv` may miss the solution. -/
theorem mle_fixedTheta_partial (hr : RootFinder findroot) (hn : xs ≠ []) (hs : 0 < s) {kp : Param} (hkp : ∀ x, kp ≠ .fixed x)
    (hy : sampleMean (xs.map fun x => x / s) ≤ -(3 / 8) ∨ -(1 / 8) < sampleMean (xs.map fun x => x / s)) :
    ∃ k : ℝ, mle findroot findroot1 findroot2 (xs.map fin) kp (.fixed (fin s)) = .ok (fin k, fin s) ∧
      IsMle (fun k : ℝ => 0 < k) (fun k => nll (xs.map fin) (fin k) (fin s)) k := by
  have hb : fun_.Bracketed (sampleMean (xs.map fun x => x / s)) := by
    rcases hy with h | h
    · rcases le_or_gt (sampleMean (xs.map fun x => x / s)) (-3) with h3 | h3
      · exact fun_.bracket_lo h3
      · exact fun_.bracket_mid h3 h
    · exact fun_.bracket_hi h
  obtain ⟨k, h0, h1, h2⟩ := fun_.digammainv_bracketed hr hb
  exact ⟨k, by rw [mle_scale_eval hn hs hkp, h1]; rfl, isMle_shape hn hs h0 h2⟩

/-- C31: with `theta` fixed, if the root finder returns a positive zero, the estimate maximises the likelihood. -/
theorem mle_fixedTheta_sound_partial (hr : SoundFinderB findroot) (hn : xs ≠ []) (hs : 0 < s) {kp : Param} (hkp : ∀ x, kp ≠ .fixed x)
    {s' : Num} (h : mle findroot findroot1 findroot2 (xs.map fin) kp (.fixed (fin s)) = .ok (fin k, s')) (hk : 0 < k) :
    s' = fin s ∧ IsMle (fun k : ℝ => 0 < k) (fun k => nll (xs.map fin) (fin k) (fin s)) k := by
  rw [mle_scale_eval hn hs hkp] at h
  obtain ⟨r, h1, h2⟩ := ok_of_bind h
  obtain ⟨rfl, rfl⟩ := Prod.mk.inj (Except.ok.inj h2)
  exact ⟨rfl, isMle_shape hn hs hk (fun_.digammainv_sound hr h1 hk)⟩

/-- C31: with `k` fixed, if the root finder returns a positive zero, the estimate of `theta` maximises the likelihood.
Missing: that the root finder converges, and to a positive number. -/
theorem mle_fixedK_partial (hr : SoundFinder findroot1) (hk : 0 < k) {tp : Param} (htp : ∀ x, tp ≠ .fixed x) {k' : Num}
    (h : mle findroot findroot1 findroot2 (xs.map fin) (.fixed (fin k)) tp = .ok (k', fin s)) (hs : 0 < s) :
    k' = fin k ∧ IsMle (fun s : ℝ => 0 < s) (fun s => nll (xs.map fin) (fin k) (fin s)) s := by
  have e : ∃ t0, mle findroot findroot1 findroot2 (xs.map fin) (.fixed (fin k)) tp = (do
      let (k, theta0) ← validateParams (fin k) t0
      return (k, ← findroot1 (fun s => scaleEq (xs.map fin) k s) theta0)) := by
    cases tp with
    | fixed x => exact absurd rfl (htp x)
    | none => exact ⟨_, by simp only [mle, bounds, ok_bind]; rfl⟩
    | initial x => exact ⟨_, by simp only [mle, bounds, ok_bind]; rfl⟩
  obtain ⟨t0, e⟩ := e
  rw [e] at h
  obtain ⟨⟨a, b⟩, h1, h2⟩ := ok_of_bind h
  have ha : a = fin k := by
    simp only [validateParams] at h1
    split_ifs at h1
    exact (Prod.mk.inj (Except.ok.inj h1)).1.symm
  subst ha
  obtain ⟨r, h3, h4⟩ := ok_of_bind h2
  obtain ⟨rfl, rfl⟩ := Prod.mk.inj (Except.ok.inj h4)
  have h5 := hr _ _ _ h3
  rw [scaleEq_eval hs.ne'] at h5
  have h6 : -xs.length * s + (xs.map fun x => x * (Real.exp (x / s) - k)).sum = 0 := Num.fin.inj (Except.ok.inj h5)
  exact ⟨rfl, isMle_of hs (fun _ hs => nll_eval hk hs xs) fun s' hs' => scale_min hs h6 hs'⟩

/-- C31: with both parameters free, if the root finder returns a zero with positive entries, each entry maximises the likelihood
given the other one.  Missing: that the pair is a maximum, and that the root finder converges. -/
theorem mle_free_partial (hr : SoundFinder2 findroot2) (hn : xs ≠ []) {kp tp : Param} (hkp : ∀ x, kp ≠ .fixed x) (htp : ∀ x, tp ≠ .fixed x)
    (h : mle findroot findroot1 findroot2 (xs.map fin) kp tp = .ok (fin k, fin s)) (hk : 0 < k) (hs : 0 < s) :
    IsMle (fun k : ℝ => 0 < k) (fun k => nll (xs.map fin) (fin k) (fin s)) k ∧
    IsMle (fun s : ℝ => 0 < s) (fun s => nll (xs.map fin) (fin k) (fin s)) s := by
  have e : mle findroot findroot1 findroot2 (xs.map fin) kp tp = (do
      let (k0, theta0) ← validateParams kp.start tp.start
      findroot2 (fun k s => shapeScaleEq (xs.map fin) k s) (k0, theta0)) := by
    cases kp <;> cases tp <;> first | exact absurd rfl (hkp _) | exact absurd rfl (htp _) | (simp only [mle, bounds, ok_bind])
  rw [e] at h
  obtain ⟨⟨a, b⟩, -, h2⟩ := ok_of_bind h
  have h3 := hr _ _ _ h2
  have hz : (xs.map fin).mapM (fun t => t /. fin s) = .ok ((xs.map fun x => x / s).map fin) := mapM_logpdf fun x _ => fin_div _ hs.ne'
  simp only [shapeScaleEq, hz, ok_bind, mp.digamma_pos hk, len_fin, neg_fin, fin_mul, mp.fsum_fin, fin_add, scaleEq_eval hs.ne',
    pure_eq_ok] at h3
  obtain ⟨h4, h5⟩ := Prod.mk.inj (Except.ok.inj h3)
  have h4' : -xs.length * psi k + (xs.map fun x => x / s).sum = 0 := Num.fin.inj h4
  have h5' : -xs.length * s + (xs.map fun x => x * (Real.exp (x / s) - k)).sum = 0 := Num.fin.inj h5
  refine ⟨isMle_shape hn hs hk ?_, isMle_of hs (fun _ hs => nll_eval hk hs xs) fun s' hs' => scale_min hs h5' hs'⟩
  have h0 := length_pos hn
  rw [sum_eq_mean hn] at h4'
  have : (xs.length:ℝ) * (sampleMean (xs.map fun x => x / s) - psi k) = 0 := by linarith
  have := (mul_eq_zero.1 this).resolve_left h0.ne'
  linarith

/-- C31: without data and with `theta` fixed, `mle` divides by zero. -/
theorem mle_empty (hs : 0 < s) : mle findroot findroot1 findroot2 [] .none (.fixed (fin s)) = .error .zeroDivision := by
  have hv : validateParams 1 (fin s) = .ok (fin 1, fin s) := validate_ok one_pos hs
  have hb := bounds []
  simp only [List.map_nil] at hb
  simp only [mle, hb, ok_bind, hv, List.mapM_nil, pure_eq_ok, mean_nil]; rfl

/-- Non-vacuity: root finders -/
example : (∃ findroot, SoundFinder findroot) ∧ (∃ findroot, SoundFinder2 findroot) ∧ ∃ findroot, RootFinder findroot :=
  ⟨exists_soundFinder.imp fun _ h => h.1, exists_soundFinder2.imp fun _ h => h.1, exists_rootFinder⟩

/-- the equations have a solution for the data `[1]`: `k = e - 1`, `theta = 1` -/
example : scaleEq ([1].map fin) (fin (Real.exp 1 - 1)) (fin 1) = .ok 0 := by
  rw [scaleEq_eval one_ne_zero]; simp

end Mpsci.loggamma
