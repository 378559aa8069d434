import Verif.Lemmas.Fit.Gamma

/-! `gamma.nll` with its derivatives, `gamma.mle` and `gamma.mom`. -/

namespace Mpsci.gamma

open Classical Num Spec common Set Filter Topology

variable {k s : ℝ} {xs : List ℝ} {findroot : (Num → M Num) → Num → Num → M Num} {steps : ℕ}

/-- C30 -/
theorem nll_spec (hk : 0 < k) (hs : 0 < s) : NllIsNegSum {x | 0 < x} (logpdf · (fin k) (fin s)) (nll · (fin k) (fin s)) :=
  nll_of (l := l k s) (fun _ h => logpdf_l hk hs h) fun xs hx => by rw [nll_eval hx hk hs, sum_l]

/-- C30: negative data are rejected. -/
theorem nll_rejects (hk : 0 < k) (hs : 0 < s) : NllRejects {x | 0 ≤ x} (nll · (fin k) (fin s)) := by
  rintro xs ⟨x, hx, h⟩
  simp only [nll, validate_ok hk hs, ok_bind, zero_def, validateXBounds_low (badLow_weak.2 ⟨x, hx, not_le.1 h⟩)]
  rfl

/-- C30 -/
theorem nll_invalid (h : ¬ (0 < k ∧ 0 < s)) (xs : List Num) : nll xs (fin k) (fin s) = .error .valueError ∧
    nllGrad xs (fin k) (fin s) = .error .valueError ∧ nllHess xs (fin k) (fin s) = .error .valueError ∧
    nllInvhess xs (fin k) (fin s) = .error .valueError := by
  simp only [nll, nllGrad, nllHess, nllInvhess, validate_bad h]
  exact ⟨rfl, rfl, rfl, rfl⟩

/-- C43 -/
theorem nllGrad_spec (hx : ∀ x ∈ xs, 0 < x) : IsGradient {p | 0 < p.1 ∧ 0 < p.2} (fun k s => nll (xs.map fin) (fin k) (fin s))
    (fun k s => nllGrad (xs.map fin) (fin k) (fin s)) :=
  ⟨L xs, fun p hp => ⟨nll_eval hx hp.1 hp.2, _, _, grad_eval hx hp.1 hp.2, deriv_k hp.1, deriv_s hp.2⟩⟩

/-- C43 -/
theorem nllHess_spec (hx : ∀ x ∈ xs, 0 < x) : IsHessian {p | 0 < p.1 ∧ 0 < p.2} (fun k s => nllGrad (xs.map fin) (fin k) (fin s))
    (fun k s => nllHess (xs.map fin) (fin k) (fin s)) := by
  refine ⟨fun k s => -((xs.map Real.log).sum - xs.length * Real.log s - xs.length * psi k), fun k s => -(xs.sum / s ^ 2 - xs.length * k / s),
    fun p hp => ⟨grad_eval hx hp.1 hp.2, H xs p.1 p.2, hess_eval hp.1 hp.2, ?_, ?_, ?_, ?_⟩⟩
  · have h := (((hasDerivAt_psi' hp.1).const_mul (xs.length:ℝ)).const_sub ((xs.map Real.log).sum - xs.length * Real.log p.2)).neg
    exact h.congr_deriv (by simp [H])
  · have h := ((((Real.hasDerivAt_log hp.2.ne').const_mul (xs.length:ℝ)).const_sub (xs.map Real.log).sum).sub_const (xs.length * psi p.1)).neg
    exact h.congr_deriv (by simp [H, div_eq_mul_inv])
  · have h := ((((hasDerivAt_id p.1).const_mul (xs.length:ℝ)).div_const p.2).const_sub (xs.sum / p.2 ^ 2)).neg
    exact h.congr_deriv (by simp [H])
  · have h1 := ((hasDerivAt_pow 2 p.2).inv (pow_ne_zero 2 hp.2.ne')).const_mul xs.sum
    have h2 := (hasDerivAt_inv hp.2.ne').const_mul (xs.length * p.1)
    have h := (h1.sub h2).neg
    simp only [Pi.inv_apply, ← div_eq_mul_inv] at h
    refine HasDerivAt.congr_deriv (f' := _) h ?_
    have := hp.2.ne'
    simp [H]; field_simp; ring

/-- C43 -/
theorem nllInvhess_spec (xs : List ℝ) (hk : 0 < k) (hs : 0 < s) :
    IsInverse (nllHess (xs.map fin) (fin k) (fin s)) (nllInvhess (xs.map fin) (fin k) (fin s)) := by
  refine ⟨H xs k s, hess_eval hk hs, ?_⟩
  have hdet : (H xs k s).det = det xs k s := by rw [H, Matrix.det_fin_two_of, det]; ring
  by_cases hd : det xs k s = 0
  · refine Or.inr ⟨fun V hV => ?_, invhess_singular hk hs hd⟩
    have := congrArg Matrix.det hV
    rw [Matrix.det_mul, hdet, hd, mul_zero, Matrix.det_one] at this
    exact zero_ne_one this
  · refine Or.inl ⟨_, invhess_eval hk hs hd, ?_⟩
    have h1 : !![(2 * xs.sum / s ^ 3 - xs.length * k / s ^ 2) / det xs k s, -(xs.length / s) / det xs k s;
        -(xs.length / s) / det xs k s, xs.length * psi1 k / det xs k s] * H xs k s = 1 := by
      rw [H, Matrix.mul_fin_two, Matrix.one_fin_two]
      have e : det xs k s = xs.length * psi1 k * (2 * xs.sum / s ^ 3 - xs.length * k / s ^ 2) - (xs.length / s) ^ 2 := rfl
      congr 1
      ext i j
      fin_cases i <;> fin_cases j <;> simp <;> field_simp <;> rw [e] <;> field_simp <;> ring
    exact ⟨h1, mul_eq_one_comm.1 h1⟩

/-- C31: with the shape fixed, the estimate of the scale maximises the likelihood. -/
theorem mle_fixedK (hn : xs ≠ []) (hx : ∀ x ∈ xs, 0 < x) (hk : 0 < k) :
    ∃ s : ℝ, mle findroot (xs.map fin) (some (fin k)) none steps = .ok (fin k, fin s) ∧
      IsMle (fun s : ℝ => 0 < s) (fun s => nll (xs.map fin) (fin k) (fin s)) s := by
  obtain ⟨m1, m2⟩ := means hn hx
  refine ⟨sampleMean xs / k, ?_, isMle_of (div_pos (mean_pos hn hx) hk) (fun _ hs => nll_eval hx hk hs) fun s hs => ?_⟩
  · simp only [mle, logs hx, ok_bind, m1, m2, fin_div _ hk.ne', pure_eq_ok]
  · rw [L_eq hn, L_eq hn]
    exact mul_le_mul_of_nonneg_left (scale_min hn hx hk hs) (by positivity)

theorem isMle_shape (hn : xs ≠ []) (hx : ∀ x ∈ xs, 0 < x) (hs : 0 < s) (hk : 0 < k)
    (h : psi k = sampleMean (xs.map Real.log) - Real.log s) :
    IsMle (fun k : ℝ => 0 < k) (fun k => nll (xs.map fin) (fin k) (fin s)) k :=
  isMle_of hk (fun _ hk => nll_eval hx hk hs) fun k' hk' => by
    rw [L_eq hn, L_eq hn]
    exact mul_le_mul_of_nonneg_left (shape_min hn hk h hk') (by positivity)

theorem mle_scale_eval (hn : xs ≠ []) (hx : ∀ x ∈ xs, 0 < x) (hs : 0 < s) : mle findroot (xs.map fin) none (some (fin s)) steps = (do
    return (← fun_.digammainv findroot (fin (sampleMean (xs.map Real.log) - Real.log s)), fin s)) := by
  obtain ⟨m1, m2⟩ := means hn hx
  simp only [mle, logs hx, ok_bind, m1, m2, mp.log_pos hs, fin_sub]

/-- C31: with the scale fixed and a root finder that finds the zero in a bracket, the estimate of the shape maximises the
likelihood.  Missing: the values for which the bracket of `digammainv` may miss the solution. -/
theorem mle_fixedScale_partial (hr : RootFinder findroot) (hn : xs ≠ []) (hx : ∀ x ∈ xs, 0 < x) (hs : 0 < s)
    (hy : sampleMean (xs.map Real.log) - Real.log s ≤ -(3 / 8) ∨ -(1 / 8) < sampleMean (xs.map Real.log) - Real.log s) :
    ∃ k : ℝ, mle findroot (xs.map fin) none (some (fin s)) steps = .ok (fin k, fin s) ∧
      IsMle (fun k : ℝ => 0 < k) (fun k => nll (xs.map fin) (fin k) (fin s)) k := by
  have hb : fun_.Bracketed (sampleMean (xs.map Real.log) - Real.log s) := by
    rcases hy with h | h
    · rcases le_or_gt (sampleMean (xs.map Real.log) - Real.log s) (-3) with h3 | h3
      · exact fun_.bracket_lo h3
      · exact fun_.bracket_mid h3 h
    · exact fun_.bracket_hi h
  obtain ⟨k, h0, h1, h2⟩ := fun_.digammainv_bracketed hr hb
  exact ⟨k, by rw [mle_scale_eval hn hx hs, h1]; rfl, isMle_shape hn hx hs h0 h2⟩

/-- C31: with the scale fixed, if the root finder returns a positive zero, the estimate maximises the likelihood. -/
theorem mle_fixedScale_sound_partial (hr : SoundFinderB findroot) (hn : xs ≠ []) (hx : ∀ x ∈ xs, 0 < x) (hs : 0 < s) {s' : Num}
    (h : mle findroot (xs.map fin) none (some (fin s)) steps = .ok (fin k, s')) (hk : 0 < k) :
    s' = fin s ∧ IsMle (fun k : ℝ => 0 < k) (fun k => nll (xs.map fin) (fin k) (fin s)) k := by
  rw [mle_scale_eval hn hx hs] at h
  obtain ⟨r, h1, h2⟩ := ok_of_bind h
  obtain ⟨rfl, rfl⟩ := Prod.mk.inj (Except.ok.inj h2)
  exact ⟨rfl, isMle_shape hn hx hs hk (fun_.digammainv_sound hr h1 hk)⟩

/-- C31: with both parameters free, unless all data are equal, the estimate after any number of Newton steps is an admissible
pair (`mean / k` for the scale), and with the number of steps the estimates converge to a pair that maximises the likelihood.
Missing: how close the estimate is after the 10 steps that the code makes. -/
theorem mle_free_partial (hx : ∀ x ∈ xs, 0 < x) (hv : ¬ ∃ c, ∀ x ∈ xs, x = c) : ∃ (ks ss : ℕ → ℝ) (k s : ℝ),
    (∀ steps, mle findroot (xs.map fin) none none steps = .ok (fin (ks steps), fin (ss steps)) ∧ 0 < ks steps ∧
      IsMle (fun s : ℝ => 0 < s) (fun s => nll (xs.map fin) (fin (ks steps)) (fin s)) (ss steps)) ∧
    Tendsto ks atTop (𝓝 k) ∧ Tendsto ss atTop (𝓝 s) ∧
    IsMle (fun θ : ℝ × ℝ => 0 < θ.1 ∧ 0 < θ.2) (fun θ => nll (xs.map fin) (fin θ.1) (fin θ.2)) (k, s) := by
  have hn : xs ≠ [] := by rintro rfl; exact hv ⟨0, by simp⟩
  have hm := mean_pos hn hx
  have hc : 0 < Real.log (sampleMean xs) - sampleMean (xs.map Real.log) := sub_pos.2 (log_mean_lt hx hv)
  obtain ⟨k, hk, he⟩ := D_root hc
  obtain ⟨hpos, hlim⟩ := seq_tendsto hc hk he
  set c := Real.log (sampleMean xs) - sampleMean (xs.map Real.log) with hcd
  obtain ⟨m1, m2⟩ := means hn hx
  refine ⟨seq c (start c), fun n => sampleMean xs / seq c (start c) n, k, sampleMean xs / k, fun n => ⟨?_, hpos n, ?_⟩, hlim,
    tendsto_const_nhds.div hlim hk.ne', ?_⟩
  · simp only [mle, logs hx, ok_bind, m1, m2, mleK_eval hm hc, ← hcd, fin_div _ (hpos n).ne', pure_eq_ok]
  · refine isMle_of (div_pos hm (hpos n)) (fun _ hs => nll_eval hx (hpos n) hs) fun s hs => ?_
    rw [L_eq hn, L_eq hn]
    exact mul_le_mul_of_nonneg_left (scale_min hn hx (hpos n) hs) (by positivity)
  · refine isMle_of (est := (k, sampleMean xs / k)) ⟨hk, div_pos hm hk⟩ (fun θ h => nll_eval hx h.1 h.2) fun θ h => ?_
    rw [L_eq hn, L_eq hn]
    exact mul_le_mul_of_nonneg_left ((profile_min hn hx hk he h.1).trans (scale_min hn hx h.1 h.2)) (by positivity)

/-- C31: with both parameters free, when one more Newton step would change nothing, the estimate maximises the likelihood. -/
theorem mle_converged (hx : ∀ x ∈ xs, 0 < x) (hv : ¬ ∃ c, ∀ x ∈ xs, x = c) 
    (hconv : mle findroot (xs.map fin) none none (steps + 1) = mle findroot (xs.map fin) none none steps) :
    ∃ k s : ℝ, mle findroot (xs.map fin) none none steps = .ok (fin k, fin s) ∧
    IsMle (fun θ : ℝ × ℝ => 0 < θ.1 ∧ 0 < θ.2) (fun θ => nll (xs.map fin) (fin θ.1) (fin θ.2)) (k, s) := by
  have hn : xs ≠ [] := by rintro rfl; exact hv ⟨0, by simp⟩
  have hm := mean_pos hn hx
  have hc : 0 < Real.log (sampleMean xs) - sampleMean (xs.map Real.log) := sub_pos.2 (log_mean_lt hx hv)
  obtain ⟨r, hr, her⟩ := D_root hc
  obtain ⟨hpos, -⟩ := seq_tendsto hc hr her
  set c := Real.log (sampleMean xs) - sampleMean (xs.map Real.log) with hcd
  obtain ⟨m1, m2⟩ := means hn hx
  have ev : ∀ n, mle findroot (xs.map fin) none none n = .ok (fin (seq c (start c) n), fin (sampleMean xs / seq c (start c) n)) := fun n => by
    simp only [mle, logs hx, ok_bind, m1, m2, mleK_eval hm hc, ← hcd, fin_div _ (hpos n).ne', pure_eq_ok]
  rw [ev, ev] at hconv
  have h1 : seq c (start c) (steps + 1) = seq c (start c) steps := Num.fin.inj (Prod.mk.inj (Except.ok.inj hconv)).1
  set k := seq c (start c) steps with hkd
  have hk : 0 < k := hpos steps
  have he : D k = c := by
    have h2 : k - (D k - c) / (1 / k - psi1 k) = k := h1
    have h3 : (D k - c) / (1 / k - psi1 k) = 0 := by linarith
    rcases div_eq_zero_iff.1 h3 with h | h
    · linarith
    · exact absurd h (D'_neg hk).ne
  refine ⟨k, _, ev steps, isMle_of (est := (k, sampleMean xs / k)) ⟨hk, div_pos hm hk⟩ (fun θ h => nll_eval hx h.1 h.2) fun θ h => ?_⟩
  rw [L_eq hn, L_eq hn]
  exact mul_le_mul_of_nonneg_left ((profile_min hn hx hk he h.1).trans (scale_min hn hx h.1 h.2)) (by positivity)

/-- C31: when all data are equal there is no maximum, and `mle` divides by zero. -/
theorem mle_equal (hn : xs ≠ []) {c : ℝ} (hc : 0 < c) (h : ∀ x ∈ xs, x = c) :
    mle findroot (xs.map fin) none none steps = .error .zeroDivision := by
  have hx : ∀ x ∈ xs, 0 < x := fun x hm => by rw [h x hm]; exact hc
  obtain ⟨m1, m2⟩ := means hn hx
  have e1 : sampleMean xs = c := by
    have : xs = xs.map fun _ => c := by
      conv_lhs => rw [← List.map_id xs]
      exact List.map_congr_left fun x hm => h x hm
    rw [this]; exact sampleMean_const hn c
  have e2 : sampleMean (xs.map Real.log) = Real.log c := by
    rw [sampleMean_congr (ψ := fun _ => Real.log c) fun x hm => by rw [h x hm], sampleMean_const hn]
  rw [e1] at m1
  rw [e2] at m2
  simp only [mle, logs hx, ok_bind, m1, m2, mleK, mp.log_pos hc, fin_sub, sub_self, ofNat_def, fin_mul, mul_zero, mp.ipow_fin, fin_add,
    mp.sqrt_nonneg (show (0:ℝ) ≤ (0 - 3) ^ 2 + 0 by norm_num), fin_div_zero]
  rfl

/-- C31: without data, `mle` divides by zero. -/
theorem mle_empty (k s : Option Num) : mle findroot [] k s steps = .error .zeroDivision := by
  have : mp.fsum [] /. stats.len [] = .error .zeroDivision := by simp [stats.len]
  simp only [mle, this]; rfl

/-- C32: unless all data are equal, the estimates of `mom` reproduce the mean and the variance. -/
theorem mom_matches (hx : ∀ x ∈ xs, 0 < x) (hv : ¬ ∃ c, ∀ x ∈ xs, x = c) : ∃ k s : ℝ, mom (xs.map fin) = .ok (fin k, fin s) ∧
    0 < k ∧ 0 < s ∧ MatchesMoments xs (mean (fin k) (fin s)) (var (fin k) (fin s)) := by
  have hn : xs ≠ [] := by rintro rfl; exact hv ⟨0, by simp⟩
  have hm := mean_pos hn hx
  have h0 : 0 < sampleVar xs := (sampleVar_nonneg xs).lt_of_ne' (mt (sampleVar_eq_zero hn).1 hv)
  have hk : 0 < sampleMean xs ^ 2 / sampleVar xs := by positivity
  have hs : 0 < sampleVar xs / sampleMean xs := by positivity
  have hvar : stats.var (xs.map fin) = .ok (fin (sampleVar xs)) := by
    have hl := (length_pos hn).ne'
    simp only [stats.var, mp.fsum_fin, len_fin, fin_div _ hl, ok_bind, zero_def, fin_sub, sub_zero, List.map_map, Function.comp_def, fin_mul]
    rw [mp.fsum_map_fin, fin_div _ hl, sampleVar]
    simp only [sampleMean, sq]
  refine ⟨_, _, ?_, hk, hs, ?_, ?_⟩
  · simp only [mom, mean_fin hn, hvar, ok_bind, mp.ipow_fin, fin_div _ h0.ne', fin_div _ hm.ne', pure_eq_ok]
  · simp only [mean, validate_ok hk hs, ok_bind, fin_mul, pure_eq_ok]
    congr 2; field_simp
  · simp only [var, validate_ok hk hs, ok_bind, mp.ipow_fin, fin_mul, pure_eq_ok]
    congr 2; field_simp

example : ∃ xs : List ℝ, (∀ x ∈ xs, 0 < x) ∧ ¬ ∃ c, ∀ x ∈ xs, x = c :=
  ⟨[1, 2], by simp, by rintro ⟨c, h⟩; have h1 := h 1 (by simp); have h2 := h 2 (by simp); norm_num [← h1] at h2⟩

end Mpsci.gamma
