import Verif.Lemmas.Fit.Hypsecant

/-! Maximum likelihood estimators of the hyperbolic secant and the Benktander I distributions. -/

namespace Mpsci.hypsecant

open Classical Num common Spec

variable {xs : List ℝ} {loc s : ℝ} {findroot1 : (Num → M Num) → Num → M Num}
  {findroot2 : (Num → Num → M (Num × Num)) → Num × Num → M (Num × Num)}

/-- C31: both parameters free, or given a starting value: if `mle` returns finite values and the scale is positive, the
estimates maximise the likelihood over all locations and all positive scales.
Missing: that the multidimensional Newton method finds a root, and that the root has a positive scale. -/
theorem mle_isMle_partial (hf : SoundFinder2 findroot2) {pl ps : Param} (hpl : ∀ v, pl ≠ .fixed v) (hps : ∀ v, ps ≠ .fixed v)
    (hs : 0 < s) (h : mle findroot1 findroot2 (xs.map fin) pl ps = .ok (fin loc, fin s)) :
    IsMle (fun θ : ℝ × ℝ => 0 < θ.2) (fun θ => nll (xs.map fin) (fin θ.1) (fin θ.2)) (loc, s) := by
  have h : mleBoth findroot2 (xs.map fin) pl ps = .ok (fin loc, fin s) := by
    cases pl <;> cases ps <;> first | exact absurd rfl (hpl _) | exact absurd rfl (hps _) | (simpa [mle, validateXBounds_none] using h)
  unfold mleBoth at h
  rcases h0 : startLoc (xs.map fin) pl with _ | l0
  · rw [h0] at h; exact absurd h (by simp [bind, Except.bind])
  rw [h0, ok_bind] at h
  obtain ⟨x0, hr⟩ : ∃ x0, findroot2 (fun loc scale => do return (← eq1 (xs.map fin) loc scale, ← eq2 (xs.map fin) loc scale)) x0 =
      .ok (fin loc, fin s) := by
    cases ps with
    | initial v => exact ⟨_, h⟩
    | fixed v => exact absurd rfl (hps v)
    | none =>
      rcases h1 : stats.std (xs.map fin) with _ | s0
      · simp only [h1] at h; exact absurd h (by simp [bind, Except.bind])
      · simp only [h1, ok_bind] at h; exact ⟨_, h⟩
  have h2 := hf _ _ _ hr
  simp only [eq1_eval hs.ne', eq2_eval hs.ne', ok_bind, pure_eq_ok, zero_def] at h2
  obtain ⟨e1, e2⟩ := Prod.mk.inj (Except.ok.inj h2)
  exact isMle_of hs (fun θ hθ => nll_eval hθ xs) fun θ hθ =>
    locScale_stationary phi_tangent hs (by linarith [fin.inj e2]) (Or.inl (fin.inj e1)) hθ

/-- C31: the scale is fixed: what is returned maximises the likelihood over all locations. -/
theorem mle_loc_isMle_partial (hf : SoundFinder findroot1) {pl : Param} (hpl : ∀ v, pl ≠ .fixed v) {s' : ℝ}
    (h : mle findroot1 findroot2 (xs.map fin) pl (.fixed (fin s)) = .ok (fin loc, fin s')) :
    0 < s ∧ s' = s ∧ IsMle (fun _ : ℝ => True) (fun l => nll (xs.map fin) (fin l) (fin s)) loc := by
  have h : mleLoc findroot1 (xs.map fin) pl (fin s) = .ok (fin loc, fin s') := by
    cases pl <;> first | exact absurd rfl (hpl _) | (simpa [mle, validateXBounds_none] using h)
  unfold mleLoc at h
  rcases h0 : startLoc (xs.map fin) pl with _ | l0
  · rw [h0] at h; exact absurd h (by simp [bind, Except.bind])
  rw [h0, ok_bind] at h
  by_cases hs : 0 < s
  swap
  · rw [validateLocScale_bad _ (not_lt.1 hs)] at h; exact absurd h (by simp [bind, Except.bind])
  rw [validateLocScale_ok _ hs, ok_bind] at h
  rcases hr : findroot1 (fun loc => eq1 (xs.map fin) loc (fin s)) l0 with _ | r
  · simp only [hr] at h; exact absurd h (by simp [bind, Except.bind])
  simp only [hr, ok_bind, pure_eq_ok] at h
  obtain ⟨rfl, e⟩ := Prod.mk.inj (Except.ok.inj h)
  have h2 := hf _ _ _ hr
  simp only [eq1_eval hs.ne', zero_def] at h2
  exact ⟨hs, (fin.inj e).symm, isMle_of trivial (fun l _ => nll_eval hs xs) fun l _ => loc_min hs (fin.inj (Except.ok.inj h2)) l⟩

/-- C31: the scale is fixed: with a root finder that finds a root when there is one, `mle` returns the maximum likelihood
estimate of the location. -/
theorem mle_loc_isMle (hf : NewtonFinder findroot1) (hs : 0 < s) (hn : xs ≠ []) :
    ∃ l, mle findroot1 findroot2 (xs.map fin) .none (.fixed (fin s)) = .ok (fin l, fin s) ∧
      IsMle (fun _ : ℝ => True) (fun l => nll (xs.map fin) (fin l) (fin s)) l := by
  obtain ⟨l, h1, h2⟩ := hf (fun loc => eq1 (xs.map fin) loc (fin s)) _ (sampleMean xs) (fun l => eq1_eval hs.ne') (exists_loc hs xs)
  refine ⟨l, ?_, isMle_of trivial (fun l _ => nll_eval hs xs) fun l' _ => loc_min hs h2 l'⟩
  simp only [mle, validateXBounds_none, ok_bind, mleLoc, startLoc, mean_fin hn, validateLocScale_ok _ hs, h1, pure_eq_ok]

/-- C31: the location is fixed: if a positive scale is returned, it maximises the likelihood over all positive scales. -/
theorem mle_scale_isMle_partial (hf : SoundFinder findroot1) {ps : Param} (hps : ∀ v, ps ≠ .fixed v) {loc' : ℝ} (hs : 0 < s)
    (h : mle findroot1 findroot2 (xs.map fin) (.fixed (fin loc)) ps = .ok (fin loc', fin s)) :
    loc' = loc ∧ IsMle (fun t : ℝ => 0 < t) (fun t => nll (xs.map fin) (fin loc) (fin t)) s := by
  have h : mleScale findroot1 (xs.map fin) (fin loc) ps = .ok (fin loc', fin s) := by
    cases ps <;> first | exact absurd rfl (hps _) | (simpa [mle, validateXBounds_none] using h)
  have key : ∀ s0 : Num, (do
      let (loc, scale0) ← validateLocScale (fin loc) s0
      let scaleHat ← findroot1 (fun scale => eq2 (xs.map fin) loc scale) scale0
      return (loc, scaleHat)) = (.ok (fin loc', fin s) : M (Num × Num)) →
      loc' = loc ∧ IsMle (fun t : ℝ => 0 < t) (fun t => nll (xs.map fin) (fin loc) (fin t)) s := by
    intro s0 h
    rcases hv : validateLocScale (fin loc) s0 with _ | ⟨l1, s1⟩
    · rw [hv] at h; exact absurd h (by simp [bind, Except.bind])
    have hl : l1 = fin loc := by
      unfold validateLocScale at hv
      split_ifs at hv
      exact ((Prod.mk.inj (Except.ok.inj hv)).1).symm
    subst hl
    rw [hv, ok_bind] at h
    rcases hr : findroot1 (fun scale => eq2 (xs.map fin) (fin loc) scale) s1 with _ | r
    · simp only [hr] at h; exact absurd h (by simp [bind, Except.bind])
    simp only [hr, ok_bind, pure_eq_ok] at h
    obtain ⟨e, rfl⟩ := Prod.mk.inj (Except.ok.inj h)
    have h2 := hf _ _ _ hr
    simp only [eq2_eval hs.ne', zero_def] at h2
    have h2 := fin.inj (Except.ok.inj h2)
    exact ⟨(fin.inj e).symm, isMle_of hs (fun t ht => nll_eval ht xs) fun t ht =>
      locScale_stationary phi_tangent hs (by linarith) (Or.inr rfl) ht⟩
  cases ps with
  | initial v => exact key _ h
  | fixed v => exact absurd rfl (hps v)
  | none =>
    rcases h1 : stats.std ((xs.map fin).map fun t => t - fin loc) with _ | s0
    · unfold mleScale at h; simp only [h1] at h; exact absurd h (by simp [bind, Except.bind])
    · unfold mleScale at h; simp only [h1, ok_bind] at h; exact key _ h

/-- C31: with both parameters fixed they are checked and returned. -/
theorem mle_fixed (xs : List Num) : mle findroot1 findroot2 xs (.fixed (fin loc)) (.fixed (fin s)) =
    if 0 < s then .ok (fin loc, fin s) else .error .valueError := by
  split_ifs with hs
  · simp [mle, validateXBounds_none, validateLocScale_ok _ hs]
  · simp [mle, validateXBounds_none, validateLocScale_bad _ (not_lt.1 hs)]

/-- C31 fails without the hypothesis of a positive scale: the likelihood equations are also solved by a negative scale, the
code does not check the sign, and with a root finder that is sound but returns that root the estimate is not admissible. -/
theorem mle_negative_scale : ∃ (findroot2 : (Num → Num → M (Num × Num)) → Num × Num → M (Num × Num)) (t : ℝ),
    SoundFinder2 findroot2 ∧ t < 0 ∧ mle findroot1 findroot2 ([-1, 1].map fin) .none .none = .ok (fin 0, fin t) := by
  obtain ⟨u, hu, hu1⟩ := exists_u
  have ht : -(1 / u) ≠ 0 := by rw [neg_ne_zero]; positivity
  have hd : ∀ x : ℝ, (x - 0) / -(1 / u) = -(x * u) := fun x => by field_simp; ring
  refine ⟨fun f _ => if f (fin 0) (fin (-(1 / u))) = .ok (0, 0) then .ok (fin 0, fin (-(1 / u))) else .error .valueError,
    -(1 / u), ?_, by rw [neg_lt_zero]; positivity, ?_⟩
  · intro f x0 r h
    by_cases h1 : f (fin 0) (fin (-(1 / u))) = .ok (0, 0)
    · simp only [if_pos h1] at h
      rw [← Except.ok.inj h]; exact h1
    · simp only [if_neg h1] at h
      exact absurd h (by simp)
  · have h1 : (do return (← eq1 ([-1, 1].map fin) (fin 0) (fin (-(1 / u))), ← eq2 ([-1, 1].map fin) (fin 0) (fin (-(1 / u)))) :
        M (Num × Num)) = .ok (0, 0) := by
      rw [eq1_eval ht, eq2_eval ht, ok_bind, ok_bind, pure_eq_ok, zero_def]
      simp only [List.map_cons, List.map_nil, List.sum_cons, List.sum_nil, hd, List.length_cons, List.length_nil, Real.tanh_neg,
        neg_mul, neg_neg, one_mul]
      congr 4
      · ring
      · push_cast; linarith
    have hne : ([-1, 1] : List ℝ) ≠ [] := by simp
    simp only [mle, validateXBounds_none, ok_bind, mleBoth, startLoc, mean_fin hne, std_fin hne]
    rw [if_pos h1]

/-- Non-vacuity: sound root finders exist, and for the data -1, 1 the likelihood equations have a solution with positive scale. -/
example : (∃ f, SoundFinder f) ∧ (∃ f, SoundFinder2 f) ∧ (∃ f, NewtonFinder f) ∧ ∃ t : ℝ, 0 < t ∧
    eq1 ([-1, 1].map fin) (fin 0) (fin t) = .ok 0 ∧ eq2 ([-1, 1].map fin) (fin 0) (fin t) = .ok 0 := by
  obtain ⟨u, hu, hu1⟩ := exists_u
  have ht : 1 / u ≠ 0 := by positivity
  have hd : ∀ x : ℝ, (x - 0) / (1 / u) = x * u := fun x => by field_simp; ring
  refine ⟨exists_soundFinder.imp fun _ h => h.1, exists_soundFinder2.imp fun _ h => h.1, exists_newtonFinder, 1 / u, by positivity, ?_, ?_⟩
  · rw [eq1_eval ht, zero_def]
    simp only [List.map_cons, List.map_nil, List.sum_cons, List.sum_nil, hd, neg_mul, one_mul, Real.tanh_neg]
    congr 2; ring
  · rw [eq2_eval ht, zero_def]
    simp only [List.map_cons, List.map_nil, List.sum_cons, List.sum_nil, hd, neg_mul, one_mul, Real.tanh_neg, List.length_cons, List.length_nil]
    congr 2; push_cast; linarith

end Mpsci.hypsecant

namespace Mpsci.benktander1

open Classical Num common Spec Filter Topology

variable {xs : List ℝ} {a b : ℝ} {findroot2 : (Num → Num → M (Num × Num)) → Num × Num → M (Num × Num)}

/-- C31: what is returned is admissible; unless `b` is on the boundary of the admissible set, it solves the likelihood
equations of both parameters.  Missing: that this is the maximum. -/
theorem mle_stationary_partial (hf : SoundFinder2 findroot2) {pa pb : Param}
    (h : mle findroot2 (xs.map fin) pa pb = .ok (fin a, fin b)) : 0 < a ∧ 0 < b ∧ b ≤ a * (a + 1) / 2 ∧
      (b < a * (a + 1) / 2 → IsStationary (fun a => nll (xs.map fin) (fin a) (fin b)) a ∧
        IsStationary (fun b => nll (xs.map fin) (fin a) (fin b)) b) := by
  have h : mleFree findroot2 (xs.map fin) pa pb = .ok (fin a, fin b) := by
    cases pa <;> cases pb <;> first | exact h | (exact absurd h (by simp [mle]))
  unfold mleFree at h
  by_cases hx : ∀ x ∈ xs, 1 ≤ x
  swap
  · push Not at hx
    obtain ⟨x, hx, hn⟩ := hx
    rw [one_def, validateXBounds_low (badLow_weak.2 ⟨x, hx, hn⟩)] at h
    exact absurd h (by simp [Bind.bind, Except.bind])
  have hlog : (xs.map fin).mapM mp.log = .ok ((xs.map Real.log).map fin) :=
    mapM_comp_fin fun x hm => mp.log_pos (by linarith [hx x hm])
  rw [one_def, validateXBounds_ok (by rw [badLow_weak]; rintro ⟨t, h1, h2⟩; exact absurd (hx t h1) h2.not_ge)
    (by simp), ok_bind, hlog, ok_bind] at h
  rcases h0 : startA (xs.map fin) pa with _ | a0
  · rw [h0] at h; exact absurd h (by simp [Bind.bind, Except.bind])
  rw [h0, ok_bind] at h
  rcases h1 : startB a0 pb with _ | b0
  · rw [h1] at h; exact absurd h (by simp [Bind.bind, Except.bind])
  rw [h1, ok_bind] at h
  rcases h2 : validateAB a0 b0 with _ | st
  · rw [h2] at h; exact absurd h (by simp [Bind.bind, Except.bind])
  rw [h2, ok_bind] at h
  rcases hr : findroot2 (fun a b => do return (← dlda ((xs.map Real.log).map fin) a b, ← dldb ((xs.map Real.log).map fin) a b)) st
    with _ | ⟨a', b'⟩
  · simp only [hr] at h; exact absurd h (by simp [Bind.bind, Except.bind])
  simp only [hr, ok_bind] at h
  split_ifs at h with c1 c2
  rcases hq : (a' * (a' + fin 1)) /. 2 with _ | q
  · rw [hq] at h; exact absurd h (by simp [Bind.bind, Except.bind])
  rw [hq, ok_bind] at h
  split_ifs at h with c3
  obtain ⟨rfl, rfl⟩ := Prod.mk.inj (Except.ok.inj h)
  have ha : 0 < a := not_le.1 (by simpa using c1)
  have hb : 0 < b := not_le.1 (by simpa using c2)
  have hab : b ≤ a * (a + 1) / 2 := by
    rw [fin_add, fin_mul, ofNat_def, fin_div _ (two_ne_zero (α := ℝ))] at hq
    rw [← Except.ok.inj hq, fin_lt] at c3
    exact not_lt.1 c3
  refine ⟨ha, hb, hab, fun hlt => ?_⟩
  have hL : ∀ L ∈ xs.map Real.log, r2 a b L ≠ 0 := fun L hL => by
    obtain ⟨x, hm, rfl⟩ := List.mem_map.1 hL
    exact (r2_pos ha hb hlt (Real.log_nonneg (hx x hm))).ne'
  have h3 := hf _ _ _ hr
  simp only [dlda_eval _ ha.ne' hL, dldb_eval _ hL, ok_bind, pure_eq_ok, zero_def] at h3
  obtain ⟨e1, e2⟩ := Prod.mk.inj (Except.ok.inj h3)
  have e1 := fin.inj e1
  have e2 := fin.inj e2
  constructor
  · refine ⟨fun a => ((xs.map Real.log).map fun L => ell a b L).sum, ?_, ?_⟩
    · have o1 : ∀ᶠ t in 𝓝 a, 0 < t := eventually_gt_nhds ha
      have o2 : ∀ᶠ t in 𝓝 a, b < t * (t + 1) / 2 :=
        (Continuous.tendsto (by fun_prop : Continuous fun t : ℝ => t * (t + 1) / 2) a).eventually (eventually_gt_nhds hlt)
      filter_upwards [o1, o2] with t h1 h2
      rw [nll_eval h1 hb h2 hx, List.map_map]; rfl
    · refine (hasDerivAt_sum _ fun L hm => hasDerivAt_ell_a ha.ne' (hL L hm)).congr_deriv ?_
      rw [sum_map_neg, e1, neg_zero]
  · refine ⟨fun b => ((xs.map Real.log).map fun L => ell a b L).sum, ?_, ?_⟩
    · have o1 : ∀ᶠ t in 𝓝 b, 0 < t := eventually_gt_nhds hb
      have o2 : ∀ᶠ t in 𝓝 b, t < a * (a + 1) / 2 := eventually_lt_nhds hlt
      filter_upwards [o1, o2] with t h1 h2
      rw [nll_eval ha h1 h2 hx, List.map_map]; rfl
    · refine (hasDerivAt_sum _ fun L hm => hasDerivAt_ell_b (hL L hm)).congr_deriv ?_
      rw [sum_map_neg, e2, neg_zero]

/-- C31: fixed parameters are refused. -/
theorem mle_rejects_fixed (v : Num) (p : Param) (xs : List Num) :
    mle findroot2 xs (.fixed v) p = .error .valueError ∧ mle findroot2 xs p (.fixed v) = .error .valueError := by
  cases p <;> exact ⟨rfl, rfl⟩

/-- C31: data below 1 are refused. -/
theorem mle_rejects (p q : Param) (h : ∃ x ∈ xs, x < 1) : mle findroot2 (xs.map fin) p q = .error .valueError := by
  obtain ⟨x, hx, hn⟩ := h
  have : badLow (xs.map fin) (some (fin 1)) false := badLow_weak.2 ⟨x, hx, hn⟩
  cases p <;> cases q <;> simp [mle, mleFree, validateXBounds_low this]

/-- Non-vacuity: sound root finders exist, and for 48 data (3 times 1, 37 times exp(1/2), 8 times exp(2)) the likelihood
equations are solved by `a = 2/3`, `b = 1/3`, which is admissible and not on the boundary. -/
example : (∃ f, SoundFinder2 f) ∧ (1 / 3 : ℝ) < 2 / 3 * (2 / 3 + 1) / 2 ∧
    ∃ ls : List ℝ, ls = List.replicate 3 0 ++ List.replicate 37 (1 / 2) ++ List.replicate 8 2 ∧
      dlda (ls.map fin) (fin (2 / 3)) (fin (1 / 3)) = .ok 0 ∧ dldb (ls.map fin) (fin (2 / 3)) (fin (1 / 3)) = .ok 0 := by
  have h : ∀ L ∈ List.replicate 3 (0:ℝ) ++ List.replicate 37 (1 / 2) ++ List.replicate 8 2, r2 (2 / 3) (1 / 3) L ≠ 0 := by
    intro L hL
    refine (r2_pos (by norm_num) (by norm_num) (by norm_num) ?_).ne'
    simp only [List.mem_append, List.mem_replicate] at hL
    rcases hL with (⟨_, rfl⟩ | ⟨_, rfl⟩) | ⟨_, rfl⟩ <;> norm_num
  refine ⟨exists_soundFinder2.imp fun _ h => h.1, by norm_num, _, rfl, ?_, ?_⟩
  · rw [dlda_eval _ (by norm_num) h, zero_def]
    simp only [List.map_append, List.map_replicate, List.sum_append, List.sum_replicate, r1, r2, nsmul_eq_mul]
    norm_num
  · rw [dldb_eval _ h, zero_def]
    simp only [List.map_append, List.map_replicate, List.sum_append, List.sum_replicate, r1, r2, nsmul_eq_mul]
    norm_num

end Mpsci.benktander1
