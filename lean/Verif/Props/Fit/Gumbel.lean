import Verif.Lemmas.Fit.Gumbel

/-! Estimators of the Gumbel distributions. -/

namespace Mpsci.gumbel_max

open Classical Num common Spec

variable {xs : List ℝ} {loc s : ℝ} {findroot : (Num → M Num) → Num → Num → M Num} {findroot1 : (Num → M Num) → Num → M Num}

/-- C30 -/
theorem nll_spec (hs : 0 < s) : NllIsNegSum Set.univ (logpdf · (fin loc) (fin s)) (nll · (fin loc) (fin s)) := by
  refine nll_of (l := fun x => -(Real.log s + phi ((x - loc) / s)))
    (fun x _ => by rw [logpdf_eval hs, log_f hs]) fun xs _ => ?_
  rw [nll_eval hs]
  congr 2
  have := List.sum_map_mul_left xs (fun x => Real.log s + phi ((x - loc) / s)) (-1)
  simp only [neg_one_mul] at this
  rw [this, neg_neg]

/-- C30: a scale that is not positive is rejected. -/
theorem nll_rejects (hs : s ≤ 0) (xs : List Num) : nll xs (fin loc) (fin s) = .error .valueError := by
  simp only [nll, validateLocScale_bad _ hs]; rfl

/-- C31: with nothing fixed, unless all data are equal, the bracketing loop ends and the estimates maximise the
likelihood over all locations and all positive scales. -/
theorem mle_isMle (hf : RootFinder findroot) (hv : ¬ ∃ c, ∀ x ∈ xs, x = c) : ∃ N, ∃ m s : ℝ,
    (∀ n ≥ N, mle findroot findroot1 n (xs.map fin) none none = .ok (fin m, fin s)) ∧
    IsMle (fun θ : ℝ × ℝ => 0 < θ.2) (fun θ => nll (xs.map fin) (fin θ.1) (fin θ.2)) (m, s) := by
  have hn : xs ≠ [] := by rintro rfl; exact hv ⟨0, by simp⟩
  have h0 : 0 < sampleVar xs := (sampleVar_nonneg xs).lt_of_ne' (mt (sampleVar_eq_zero hn).1 hv)
  have hs0 := Real.sqrt_pos.2 h0
  obtain ⟨A, B, hA, h1, h2⟩ := G_signs hv
  obtain ⟨N, r, hr, hr0, hN⟩ := solveFrom_finds hf (func := fun t => mleScaleFunc t (xs.map fin) (fin (sampleMean xs))) (e := 1) (F := G xs) (fun s hs => func_eval hs.ne') G_cont hA
    (fun s h h' => by rw [one_mul]; exact h1 s h h') (fun s h => by rw [one_mul]; exact h2 s h) hs0
  refine ⟨N, _, r, fun n hn' => ?_, isMle_of hr (fun θ hθ => nll_eval hθ xs)
    fun θ hθ => locScale_stationary phi_tangent hr (sum_phi'_scale hn hr hr0) (Or.inl (sum_phi'_loc hn hr)) hθ⟩
  have e : solveMleScale findroot n (xs.map fin) = .ok (fin r) := by
    simp only [solveMleScale, mean_fin hn, std_fin hn, ok_bind]
    simp only [zero_def, fin_eq, hs0.ne', if_false, hN n hn']
  simp only [mle, e, ok_bind]
  exact locFor_eval hn hr

/-- C31: with the scale fixed, the location maximises the likelihood. -/
theorem mle_fixedScale (hn : xs ≠ []) (hs : 0 < s) (n : ℕ) : ∃ m : ℝ,
    mle findroot findroot1 n (xs.map fin) none (some (fin s)) = .ok (fin m, fin s) ∧
    IsMle (fun _ : ℝ => True) (fun m => nll (xs.map fin) (fin m) (fin s)) m :=
  ⟨_, locFor_eval hn hs, isMle_of trivial (fun m _ => nll_eval hs xs)
    fun m _ => loc_stationary phi_tangent hs (sum_phi'_loc hn hs) m⟩

/-- C31: with the location fixed, if the root finder returns a positive scale, it maximises the likelihood.  Missing:
that the secant method finds a root, and that the root is positive (the equation also has roots for negative scales, and
the code does not check the sign). -/
theorem mle_fixedLoc_partial (hf : SoundFinder findroot1) (hn : xs ≠ []) {n : ℕ} {l : Num}
    (h : mle findroot findroot1 n (xs.map fin) (some (fin loc)) none = .ok (l, fin s)) (hs : 0 < s) :
    l = fin loc ∧ IsMle (fun t : ℝ => 0 < t) (fun t => nll (xs.map fin) (fin loc) (fin t)) s := by
  have e : ((xs.map fin).map fun t => t - fin loc) = (xs.map fun x => x - loc).map fin := by
    simp only [List.map_map]; exact List.map_congr_left fun x _ => by simp
  simp only [mle, e, std_fin (show (xs.map fun x => x - loc) ≠ [] by simpa using hn), ok_bind] at h
  rcases hr : findroot1 (fun t => mleScaleWithFixedLoc t (xs.map fin) (fin loc))
    (fin (Real.sqrt (sampleVar (xs.map fun x => x - loc)))) with _ | r
  · rw [hr] at h; exact absurd h (by simp [bind, Except.bind])
  rw [hr, ok_bind, pure_eq_ok] at h
  obtain ⟨rfl, rfl⟩ := Prod.mk.inj (Except.ok.inj h)
  have h1 := hf _ _ _ hr
  rw [fixedLoc_eval hn hs.ne', zero_def] at h1
  have h2 := fin.inj (Except.ok.inj h1)
  refine ⟨rfl, isMle_of hs (fun t ht => nll_eval ht xs) fun t ht =>
    locScale_stationary phi_tangent hs ?_ (Or.inr rfl) ht⟩
  have h3 := sum_eq_mean hn fun x => (Real.exp (-((x - loc) / s)) - 1) * ((x - loc) / s)
  rw [show sampleMean (xs.map fun x => (Real.exp (-((x - loc) / s)) - 1) * ((x - loc) / s)) = -1 by linarith] at h3
  have h4 := List.sum_map_mul_left xs (fun x => (Real.exp (-((x - loc) / s)) - 1) * ((x - loc) / s)) (-1)
  rw [h3] at h4
  rw [List.map_congr_left (g := fun x => -1 * ((Real.exp (-((x - loc) / s)) - 1) * ((x - loc) / s)))
    fun x _ => by simp only [phi']; ring, h4]
  ring

/-- C31: if all data are equal (a single observation included) there is no estimate: division by zero. -/
theorem mle_constant {c : ℝ} (hn : xs ≠ []) (hc : ∀ x ∈ xs, x = c) (n : ℕ) :
    mle findroot findroot1 n (xs.map fin) none none = .error .zeroDivision := by
  have h0 : sampleVar xs = 0 := (sampleVar_eq_zero hn).2 ⟨c, hc⟩
  obtain ⟨a, t, rfl⟩ := List.exists_cons_of_ne_nil hn
  have e : solveMleScale findroot n ((a :: t).map fin) = .ok (fin 0) := by
    simp only [solveMleScale, mean_fin hn, std_fin hn, ok_bind]
    simp only [zero_def, h0, Real.sqrt_zero, fin_eq, if_true, pure_eq_ok]
  simp only [mle, e, ok_bind]
  simp only [List.map_cons, List.mapM_cons, neg_fin, fin_div_zero]
  rfl

/-- C31, C47: `mle` does not check a fixed scale: a negative scale is accepted and returned, with a location, although
no distribution has it (`nll` raises for it). -/
theorem mle_unchecked_scale : ∃ m : Num, mle findroot findroot1 0 [fin 1, fin 2] none (some (fin (-1))) = .ok (m, fin (-1)) ∧
    nll [fin 1, fin 2] m (fin (-1)) = .error .valueError := by
  have h : (0:ℝ) < (Real.exp (-1 / -1) + Real.exp (-2 / -1)) / 2 := by positivity
  have h1 : (-1 : ℝ) ≠ 0 := by norm_num
  refine ⟨fin (1 * Real.log ((Real.exp (-1 / -1) + Real.exp (-2 / -1)) / 2)), ?_, ?_⟩
  · simp only [mle, pure_eq_ok, ok_bind, List.mapM_cons, List.mapM_nil, neg_fin, fin_div _ h1, mp.exp_fin]
    have : stats.mean [fin (Real.exp (-1 / -1)), fin (Real.exp (-2 / -1))] =
        .ok (fin ((Real.exp (-1 / -1) + Real.exp (-2 / -1)) / 2)) := by
      have := mean_fin (xs := [Real.exp (-1 / -1), Real.exp (-2 / -1)]) (by simp)
      simpa [sampleMean] using this
    rw [this, ok_bind, mp.log_pos h, ok_bind]
    simp
  · simp only [nll, validateLocScale]
    simp

/-- C32: unless all data are equal, `mom` returns admissible parameters, whose mean and variance are the sample mean and
variance. -/
theorem mom_matches (hv : ¬ ∃ c, ∀ x ∈ xs, x = c) : ∃ m s : ℝ, mom (xs.map fin) = .ok (fin m, fin s) ∧ 0 < s ∧
    MatchesMoments xs (mean (fin m) (fin s)) (var (fin m) (fin s)) := by
  have hn : xs ≠ [] := by rintro rfl; exact hv ⟨0, by simp⟩
  have h0 : 0 < sampleVar xs := (sampleVar_nonneg xs).lt_of_ne' (mt (sampleVar_eq_zero hn).1 hv)
  have h1 : 0 < 6 * sampleVar xs := by positivity
  have hs : 0 < Real.sqrt (6 * sampleVar xs) / Real.pi := div_pos (Real.sqrt_pos.2 h1) Real.pi_pos
  refine ⟨sampleMean xs - Real.sqrt (6 * sampleVar xs) / Real.pi * Real.eulerMascheroniConstant, _, ?_, hs, ?_, ?_⟩
  · simp only [mom, mean_fin hn, mean_sq_fin hn, ok_bind, mp.ipow_fin, fin_sub, ofNat_def, fin_mul,
      sampleVar_eq hn, mp.sqrt_nonneg h1.le, mp.pi_def, fin_div _ Real.pi_ne_zero, mp.euler, pure_eq_ok]
  · simp only [mean, validateLocScale_ok _ hs, ok_bind, mp.euler, fin_mul, fin_add, pure_eq_ok]
    congr 2; ring
  · simp only [var, validateLocScale_ok _ hs, ok_bind, mp.ipow_fin, mp.pi_def, ofNat_def, fin_div _ (show (6:ℝ) ≠ 0 by norm_num),
      fin_mul, pure_eq_ok]
    congr 2
    rw [div_pow, Real.sq_sqrt h1.le]
    have := Real.pi_ne_zero
    field_simp

/-- Non-vacuity: the data 1, 3, 8 are not all equal; there are root finders. -/
example : (¬ ∃ c : ℝ, ∀ x ∈ [(1:ℝ), 3, 8], x = c) ∧ (∃ f, RootFinder f) ∧ ∃ f, SoundFinder f := by
  refine ⟨?_, exists_rootFinder, exists_soundFinder.imp fun _ h => h.1⟩
  rintro ⟨c, h⟩
  have h1 := h 1 (by simp)
  have h2 := h 3 (by simp)
  linarith

end Mpsci.gumbel_max

namespace Mpsci.gumbel_min

open Classical Num common Spec

variable {xs : List ℝ} {loc s : ℝ} {findroot : (Num → M Num) → Num → Num → M Num} {findroot1 : (Num → M Num) → Num → M Num}

theorem neg_map (xs : List ℝ) (g : ℝ → ℝ) : (((xs.map (- ·)).map g).sum) = (xs.map fun x => g (-x)).sum := by
  rw [List.map_map]; rfl

theorem nll_eval (hs : 0 < s) (xs : List ℝ) : nll (xs.map fin) (fin loc) (fin s) =
    .ok (fin (((xs.map (- ·)).map fun x => Real.log s + gumbel_max.phi ((x - -loc) / s)).sum)) := by
  rw [nll_mirror hs, gumbel_max.nll_eval hs]

/-- C30 -/
theorem nll_spec (hs : 0 < s) : NllIsNegSum Set.univ (logpdf · (fin loc) (fin s)) (nll · (fin loc) (fin s)) := by
  refine nll_of (l := fun x => -(Real.log s + gumbel_max.phi ((-x - -loc) / s)))
    (fun x _ => by rw [logpdf_mirror, gumbel_max.logpdf_eval hs, gumbel_max.log_f hs]) fun xs _ => ?_
  rw [nll_eval hs]
  congr 2
  have := List.sum_map_mul_left xs (fun x => Real.log s + gumbel_max.phi ((-x - -loc) / s)) (-1)
  simp only [neg_one_mul] at this
  rw [this, neg_neg, neg_map]

/-- C30: a scale that is not positive is rejected. -/
theorem nll_rejects (hs : s ≤ 0) (xs : List Num) : nll xs (fin loc) (fin s) = .error .valueError := by
  simp only [nll, validateLocScale_bad _ hs]; rfl

/-- C11, C30: `nll` of the mirrored data under the mirrored distribution. -/
theorem nll_is_mirrored (hs : 0 < s) (xs : List ℝ) : nll (xs.map fin) (fin loc) (fin s) =
    gumbel_max.nll ((xs.map (- ·)).map fin) (fin (-loc)) (fin s) := nll_mirror hs xs

theorem not_const_neg (hv : ¬ ∃ c, ∀ x ∈ xs, x = c) : ¬ ∃ c, ∀ x ∈ xs.map (- ·), x = c := fun ⟨c, h⟩ =>
  hv ⟨-c, fun x hx => by have := h (-x) (List.mem_map_of_mem hx); linarith⟩

/-- C31: with nothing fixed, unless all data are equal, the bracketing loop ends and the estimates maximise the
likelihood over all locations and all positive scales. -/
theorem mle_isMle (hf : RootFinder findroot) (hv : ¬ ∃ c, ∀ x ∈ xs, x = c) : ∃ N, ∃ m s : ℝ,
    (∀ n ≥ N, mle findroot findroot1 n (xs.map fin) none none = .ok (fin m, fin s)) ∧
    IsMle (fun θ : ℝ × ℝ => 0 < θ.2) (fun θ => nll (xs.map fin) (fin θ.1) (fin θ.2)) (m, s) := by
  have hn : xs ≠ [] := by rintro rfl; exact hv ⟨0, by simp⟩
  have hn' : xs.map (- ·) ≠ [] := by simpa using hn
  have h0 : 0 < sampleVar xs := (sampleVar_nonneg xs).lt_of_ne' (mt (sampleVar_eq_zero hn).1 hv)
  have hs0 := Real.sqrt_pos.2 h0
  obtain ⟨A, B, hA, h1, h2⟩ := gumbel_max.G_signs (not_const_neg hv)
  obtain ⟨N, r, hr, hr0, hN⟩ := gumbel_max.solveFrom_finds hf (func := fun t => mleScaleFunc t (xs.map fin) (fin (sampleMean xs))) (e := -1) (F := fun s => -gumbel_max.G (xs.map (- ·)) s)
    (fun s hs => func_eval hs.ne') gumbel_max.G_cont.neg hA
    (fun s h h' => by have := h1 s h h'; linarith) (fun s h => by have := h2 s h; linarith) hs0
  have hr0 := neg_eq_zero.1 hr0
  refine ⟨N, r * Real.log (sampleMean ((xs.map (- ·)).map fun x => Real.exp (-x / r))), r, fun n hn' => ?_,
    isMle_of hr (fun θ hθ => nll_eval hθ xs) fun θ hθ => ?_⟩
  · have e : solveMleScale findroot n (xs.map fin) = .ok (fin r) := by
      simp only [solveMleScale, mean_fin hn, std_fin hn, ok_bind]
      simp only [zero_def, fin_eq, hs0.ne', if_false, hN n hn']
    simp only [mle, e, ok_bind]
    exact locFor_eval hn hr
  · simp only [← neg_mul]
    exact locScale_stationary gumbel_max.phi_tangent hr (gumbel_max.sum_phi'_scale hn' hr hr0)
      (Or.inl (gumbel_max.sum_phi'_loc hn' hr)) hθ

/-- C31: with the scale fixed, the location maximises the likelihood. -/
theorem mle_fixedScale (hn : xs ≠ []) (hs : 0 < s) (n : ℕ) : ∃ m : ℝ,
    mle findroot findroot1 n (xs.map fin) none (some (fin s)) = .ok (fin m, fin s) ∧
    IsMle (fun _ : ℝ => True) (fun m => nll (xs.map fin) (fin m) (fin s)) m := by
  refine ⟨_, locFor_eval hn hs, isMle_of trivial (fun m _ => nll_eval hs xs) fun m _ => ?_⟩
  simp only [← neg_mul]
  exact loc_stationary gumbel_max.phi_tangent hs (gumbel_max.sum_phi'_loc (by simpa using hn) hs) (-m)

/-- C31: with the location fixed, if the root finder returns a positive scale, it maximises the likelihood.  Missing:
that the secant method finds a root, and that the root is positive. -/
theorem mle_fixedLoc_partial (hf : SoundFinder findroot1) (hn : xs ≠ []) {n : ℕ} {l : Num}
    (h : mle findroot findroot1 n (xs.map fin) (some (fin loc)) none = .ok (l, fin s)) (hs : 0 < s) :
    l = fin loc ∧ IsMle (fun t : ℝ => 0 < t) (fun t => nll (xs.map fin) (fin loc) (fin t)) s := by
  have e : ((xs.map fin).map fun t => t - fin loc) = (xs.map fun x => x - loc).map fin := by
    simp only [List.map_map]; exact List.map_congr_left fun x _ => by simp
  simp only [mle, e, std_fin (show (xs.map fun x => x - loc) ≠ [] by simpa using hn), ok_bind] at h
  rcases hr : findroot1 (fun t => mleScaleWithFixedLoc t (xs.map fin) (fin loc))
    (fin (Real.sqrt (sampleVar (xs.map fun x => x - loc)))) with _ | r
  · rw [hr] at h; exact absurd h (by simp [bind, Except.bind])
  rw [hr, ok_bind, pure_eq_ok] at h
  obtain ⟨rfl, rfl⟩ := Prod.mk.inj (Except.ok.inj h)
  have h1 := hf _ _ _ hr
  rw [fixedLoc_eval hn hs.ne', zero_def] at h1
  have h2 := fin.inj (Except.ok.inj h1)
  have hn' : xs.map (- ·) ≠ [] := by simpa using hn
  refine ⟨rfl, isMle_of hs (fun t ht => nll_eval ht xs) fun t ht =>
    locScale_stationary gumbel_max.phi_tangent hs ?_ (Or.inr rfl) ht⟩
  generalize xs.map (- ·) = ys at h2 hn' ⊢
  generalize -loc = loc' at h2 ⊢
  have h3 := sum_eq_mean hn' fun x => (Real.exp (-((x - loc') / s)) - 1) * ((x - loc') / s)
  rw [show sampleMean (ys.map fun x => (Real.exp (-((x - loc') / s)) - 1) * ((x - loc') / s)) = -1 by linarith] at h3
  have h4 := List.sum_map_mul_left ys (fun x => (Real.exp (-((x - loc') / s)) - 1) * ((x - loc') / s)) (-1)
  rw [h3] at h4
  rw [List.map_congr_left (g := fun x => -1 * ((Real.exp (-((x - loc') / s)) - 1) * ((x - loc') / s)))
    fun x _ => by simp only [gumbel_max.phi']; ring, h4]
  ring

/-- C31: if all data are equal (a single observation included) there is no estimate: division by zero. -/
theorem mle_constant {c : ℝ} (hn : xs ≠ []) (hc : ∀ x ∈ xs, x = c) (n : ℕ) :
    mle findroot findroot1 n (xs.map fin) none none = .error .zeroDivision := by
  have h0 : sampleVar xs = 0 := (sampleVar_eq_zero hn).2 ⟨c, hc⟩
  obtain ⟨a, t, rfl⟩ := List.exists_cons_of_ne_nil hn
  have e : solveMleScale findroot n ((a :: t).map fin) = .ok (fin 0) := by
    simp only [solveMleScale, mean_fin hn, std_fin hn, ok_bind]
    simp only [zero_def, h0, Real.sqrt_zero, fin_eq, if_true, pure_eq_ok]
  simp only [mle, e, ok_bind]
  simp only [List.map_cons, List.mapM_cons, fin_div_zero]
  rfl

/-- C32: unless all data are equal, `mom` returns admissible parameters, whose mean and variance are the sample mean and
variance. -/
theorem mom_matches (hv : ¬ ∃ c, ∀ x ∈ xs, x = c) : ∃ m s : ℝ, mom (xs.map fin) = .ok (fin m, fin s) ∧ 0 < s ∧
    MatchesMoments xs (mean (fin m) (fin s)) (var (fin m) (fin s)) := by
  have hn : xs ≠ [] := by rintro rfl; exact hv ⟨0, by simp⟩
  have h0 : 0 < sampleVar xs := (sampleVar_nonneg xs).lt_of_ne' (mt (sampleVar_eq_zero hn).1 hv)
  have h1 : 0 < 6 * sampleVar xs := by positivity
  have hs : 0 < Real.sqrt (6 * sampleVar xs) / Real.pi := div_pos (Real.sqrt_pos.2 h1) Real.pi_pos
  refine ⟨sampleMean xs + Real.sqrt (6 * sampleVar xs) / Real.pi * Real.eulerMascheroniConstant, _, ?_, hs, ?_, ?_⟩
  · simp only [mom, mean_fin hn, mean_sq_fin hn, ok_bind, mp.ipow_fin, fin_sub, fin_add, ofNat_def, fin_mul,
      sampleVar_eq hn, mp.sqrt_nonneg h1.le, mp.pi_def, fin_div _ Real.pi_ne_zero, mp.euler, pure_eq_ok]
  · simp only [mean, validateLocScale_ok _ hs, ok_bind, mp.euler, fin_mul, fin_sub, pure_eq_ok]
    congr 2; ring
  · simp only [var, validateLocScale_ok _ hs, ok_bind, mp.ipow_fin, mp.pi_def, ofNat_def, fin_div _ (show (6:ℝ) ≠ 0 by norm_num),
      fin_mul, pure_eq_ok]
    congr 2
    rw [div_pow, Real.sq_sqrt h1.le]
    have := Real.pi_ne_zero
    field_simp

/-- Non-vacuity: see `gumbel_max`; a concrete `nll`. -/
example : nll [fin 1] (fin 1) (fin 1) = .ok (fin 1) := by
  have := nll_eval (loc := 1) (s := 1) one_pos [1]
  simpa [gumbel_max.phi] using this

end Mpsci.gumbel_min
