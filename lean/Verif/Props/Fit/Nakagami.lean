import Verif.Lemmas.Fit.Nakagami

/-! `nakagami.nll` with its gradient and `nakagami.mle`. -/

namespace Mpsci.nakagami

open Classical Num Spec common Set Filter Topology

variable {nu loc s : ℝ} {xs : List ℝ} {findroot : (Num → M Num) → Num → M Num}

/-- C30 -/
theorem nll_spec (hn : 0 < nu) (hs : 0 < s) :
    NllIsNegSum (Ioi loc) (logpdf · (fin nu) (fin loc) (fin s)) (nll · (fin nu) (fin loc) (fin s)) :=
  nll_of (l := l nu loc s) (fun _ h => logpdf_l hn hs h) fun xs hx => by rw [nll_eval hx hn hs, sum_l]

/-- C30 -/
theorem nll_rejects (hn : 0 < nu) (hs : 0 < s) : NllRejects (Ioi loc) (nll · (fin nu) (fin loc) (fin s)) := by
  rintro xs ⟨x, hx, h⟩
  simp only [nll, validate_ok hn hs, ok_bind, bounds_bad ⟨x, hx, not_lt.1 h⟩]
  rfl

/-- C30 -/
theorem nll_invalid (h : ¬ (0 < nu ∧ 0 < s)) (xs : List Num) : nll xs (fin nu) (fin loc) (fin s) = .error .valueError ∧
    nllGrad xs (fin nu) (fin loc) (fin s) = .error .valueError := by
  simp only [nll, nllGrad, validate_bad h]
  exact ⟨rfl, rfl⟩

/-- C43 -/
theorem nllGrad_spec (xs : List ℝ) : IsGradient3 {p | 0 < p.1 ∧ (∀ x ∈ xs, p.2.1 < x) ∧ 0 < p.2.2}
    (fun nu loc s => nll (xs.map fin) (fin nu) (fin loc) (fin s)) (fun nu loc s => nllGrad (xs.map fin) (fin nu) (fin loc) (fin s)) :=
  ⟨L xs, fun _ ⟨h1, h2, h3⟩ => ⟨nll_eval h2 h1 h3, _, _, _, grad_eval h2 h1 h3, deriv_nu h1, deriv_loc h2 h3, deriv_s h2 h3⟩⟩

/-- C31: with `nu` and `loc` fixed, the estimate of the scale maximises the likelihood. -/
theorem mle_fixedNu (h0 : xs ≠ []) (hx : ∀ x ∈ xs, loc < x) (hn : 0 < nu) : ∃ s : ℝ,
    mle findroot (xs.map fin) (some (fin nu)) (some (fin loc)) none = .ok (fin nu, fin loc, fin s) ∧
    IsMle (fun s : ℝ => 0 < s) (fun s => nll (xs.map fin) (fin nu) (fin loc) (fin s)) s := by
  have hm := gamma.mean_pos (ws_ne h0) (ws_pos hx)
  refine ⟨√(sampleMean (ws xs loc)), ?_, isMle_of (Real.sqrt_pos.2 hm) (fun _ hs => nll_eval hx hn hs) fun s hs => scale_min h0 hx hn hs⟩
  simp only [mle, bounds hx, ok_bind, shift, mleScale_none h0, mleNu, pure_eq_ok]

/-- C31: with `loc` and the scale fixed, whatever the root finder returns (if a zero) maximises the likelihood.
Missing: that the root finder converges. -/
theorem mle_fixedScale_partial (hr : SoundFinder findroot) (h0 : xs ≠ []) (hx : ∀ x ∈ xs, loc < x) (hs : 0 < s) {l' s' : Num}
    (h : mle findroot (xs.map fin) none (some (fin loc)) (some (fin s)) = .ok (fin nu, l', s')) :
    l' = fin loc ∧ s' = fin s ∧ IsMle (fun nu : ℝ => 0 < nu) (fun nu => nll (xs.map fin) (fin nu) (fin loc) (fin s)) nu := by
  simp only [mle, bounds hx, ok_bind, shift, mleScale, mleNu, mleR_some h0 hx hs] at h
  obtain ⟨r, h1, h2⟩ := ok_of_bind h
  obtain ⟨rfl, h3⟩ := Prod.mk.inj (Except.ok.inj h2)
  obtain ⟨rfl, rfl⟩ := Prod.mk.inj h3
  obtain ⟨a, -, h4⟩ := ok_of_bind h1
  have h5 := hr _ _ _ h4
  obtain ⟨hn, he⟩ := zero_of h5
  exact ⟨rfl, rfl, isMle_of hn (fun _ hn => nll_eval hx hn hs) fun nu' hn' => shape_min h0 hx hs hn he hn'⟩

/-- C31: with only `loc` fixed, whatever the root finder returns (if a zero), together with the estimate of the scale, maximises the
likelihood.  Missing: that the root finder converges. -/
theorem mle_free_partial (hr : SoundFinder findroot) (h0 : xs ≠ []) (hx : ∀ x ∈ xs, loc < x) {l' s' : Num}
    (h : mle findroot (xs.map fin) none (some (fin loc)) none = .ok (fin nu, l', s')) : ∃ s : ℝ, l' = fin loc ∧ s' = fin s ∧
    IsMle (fun θ : ℝ × ℝ => 0 < θ.1 ∧ 0 < θ.2) (fun θ => nll (xs.map fin) (fin θ.1) (fin loc) (fin θ.2)) (nu, s) := by
  have hm := gamma.mean_pos (ws_ne h0) (ws_pos hx)
  have hs := Real.sqrt_pos.2 hm
  simp only [mle, bounds hx, ok_bind, shift, mleScale_none h0, mleNu, mleR_none h0 hx hs] at h
  obtain ⟨r, h1, h2⟩ := ok_of_bind h
  obtain ⟨rfl, h3⟩ := Prod.mk.inj (Except.ok.inj h2)
  obtain ⟨rfl, rfl⟩ := Prod.mk.inj h3
  obtain ⟨a, -, h4⟩ := ok_of_bind h1
  have h5 := hr _ _ _ h4
  obtain ⟨hn, he⟩ := zero_of h5
  rw [R_profile h0 hx] at he
  refine ⟨_, rfl, rfl, isMle_of (est := (nu, √(sampleMean (ws xs loc)))) ⟨hn, hs⟩ (fun θ h => nll_eval hx h.1 h.2) fun θ h => ?_⟩
  exact (profile_min h0 hx hn he h.1).trans (scale_min h0 hx h.1 h.2)

/-- C31: unless all data are equal, the likelihood has a maximum, and the equation given to the root finder has exactly one solution. -/
theorem mle_free_exists (hx : ∀ x ∈ xs, loc < x) (hv : ¬ ∃ c, ∀ x ∈ xs, x = c) : ∃ R : ℝ, 0 < R ∧
    mleR ((xs.map fun x => x - loc).map fin) none (fin √(sampleMean (ws xs loc))) = .ok (fin R) ∧
    ∃! nu : ℝ, mleNuFunc (fin nu) (fin R) = .ok 0 := by
  have h0 : xs ≠ [] := list_nonempty hv
  have hm := gamma.mean_pos (ws_ne h0) (ws_pos hx)
  have hv' : ¬ ∃ c, ∀ w ∈ ws xs loc, w = c := by
    rintro ⟨c, h⟩
    refine hv ⟨loc + √c, fun x hm => ?_⟩
    have := h ((x - loc) ^ 2) (List.mem_map_of_mem hm)
    rw [← this, Real.sqrt_sq (sub_pos.2 (hx x hm)).le]; ring
  have hR : 0 < Real.log (sampleMean (ws xs loc)) - sampleMean ((ws xs loc).map Real.log) :=
    sub_pos.2 (gamma.log_mean_lt (ws_pos hx) hv')
  obtain ⟨k, hk, he⟩ := gamma.D_root hR
  refine ⟨_, hR, by rw [mleR_none h0 hx (Real.sqrt_pos.2 hm), R_profile h0 hx], k, ?_, fun y hy => ?_⟩
  · simp only [mleNuFunc, mp.log_pos hk, mp.digamma_pos hk, ok_bind, fin_sub, pure_eq_ok]
    rw [gamma.D] at he
    rw [he, sub_self]; rfl
  · obtain ⟨h1, h2⟩ := zero_of hy
    exact gamma.D_strictAnti.injOn h1 hk (h2.trans he.symm)

/-- C31: when all data are equal there is no maximum, and `mle` divides by zero. -/
theorem mle_equal (h0 : xs ≠ []) {c : ℝ} (hc : loc < c) (h : ∀ x ∈ xs, x = c) :
    mle findroot (xs.map fin) none (some (fin loc)) none = .error .zeroDivision := by
  have hx : ∀ x ∈ xs, loc < x := fun x hm => by rw [h x hm]; exact hc
  have hp : 0 < (c - loc) ^ 2 := by have := sub_pos.2 hc; positivity
  have e1 : sampleMean (ws xs loc) = (c - loc) ^ 2 := by
    rw [ws, sampleMean_congr (ψ := fun _ => (c - loc) ^ 2) fun x hm => by rw [h x hm], sampleMean_const h0]
  have hs : 0 < √(sampleMean (ws xs loc)) := Real.sqrt_pos.2 (by rw [e1]; exact hp)
  have e2 : -sampleMean (xs.map fun x => 2 * Real.log ((x - loc) / √(sampleMean (ws xs loc)))) = 0 := by
    rw [e1, Real.sqrt_sq (sub_pos.2 hc).le, sampleMean_congr (ψ := fun _ => 0) fun x hm => by
      rw [h x hm, div_self (sub_pos.2 hc).ne', Real.log_one, mul_zero], sampleMean_const h0, neg_zero]
  simp only [mle, bounds hx, ok_bind, shift, mleScale_none h0, mleNu, mleR_none h0 hx hs, e2, estimateNu_zero]
  rfl

/-- C31: `loc` must be given, and data at or below `loc` are rejected. -/
theorem mle_rejects (nu s : Option Num) (x : List Num) : mle findroot x nu none s = .error .valueError ∧
    ((∃ x ∈ xs, x ≤ loc) → (nu = none ∨ s = none) → mle findroot (xs.map fin) nu (some (fin loc)) s = .error .valueError) := by
  refine ⟨by cases nu <;> cases s <;> rfl, fun h h2 => ?_⟩
  rcases nu with _ | nu <;> rcases s with _ | s
  · simp only [mle, bounds_bad h]; rfl
  · simp only [mle, bounds_bad h]; rfl
  · simp only [mle, bounds_bad h]; rfl
  · simp at h2

/-- Non-vacuity: data that meet the hypotheses; a root finder. -/
example : (∃ xs : List ℝ, (∀ x ∈ xs, (1:ℝ) < x) ∧ ¬ ∃ c, ∀ x ∈ xs, x = c) ∧ ∃ findroot, SoundFinder findroot :=
  ⟨⟨[2, 3], by simp, by rintro ⟨c, h⟩; have h1 := h 2 (by simp); have h2 := h 3 (by simp); norm_num [← h1] at h2⟩,
    exists_soundFinder.imp fun _ h => h.1⟩

end Mpsci.nakagami
