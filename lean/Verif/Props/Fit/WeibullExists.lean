import Verif.Props.Fit.Weibull

/-! When the likelihood of `weibull_min` and `weibull_max` has a maximum. -/

namespace Mpsci.weibull_common

open Classical Num Spec

variable {k : ℝ} {ys : List ℝ} {findroot : (Num → M Num) → Num → M Num}

theorem eqn1_small (hn : ys ≠ []) (h0 : ∀ y ∈ ys, 0 < y) :
    ∃ k, 0 < k ∧ D ys k / A ys k - sampleMean (ys.map Real.log) - 1 / k < 0 := by
  obtain ⟨y, hy, hmax⟩ : ∃ y ∈ ys, ∀ x ∈ ys, x ≤ y := by
    obtain ⟨y, h2, h3, -⟩ := py.max_fin hn
    exact ⟨y, h2, h3⟩
  set m := sampleMean (ys.map Real.log)
  have hk : 0 < 1 / (|Real.log y - m| + 1) := by positivity
  refine ⟨1 / (|Real.log y - m| + 1), hk, ?_⟩
  set k := 1 / (|Real.log y - m| + 1) with hkd
  have h1 : D ys k ≤ Real.log y * A ys k := by
    rw [A, ← sampleMean_mul]
    refine sampleMean_le fun x hm => ?_
    rw [mul_comm]
    exact mul_le_mul_of_nonneg_right (Real.log_le_log (h0 x hm) (hmax x hm)) (Real.rpow_pos_of_pos (h0 x hm) k).le
  have h2 : D ys k / A ys k ≤ Real.log y := (div_le_iff₀ (A_pos hn h0 k)).2 h1
  have h3 : 1 / k = |Real.log y - m| + 1 := by rw [hkd, one_div_one_div]
  have h4 := le_abs_self (Real.log y - m)
  linarith

theorem eqn1_large (h0 : ∀ y ∈ ys, 0 < y) (hv : ¬ ∃ c, ∀ y ∈ ys, y = c) (k₀ : ℝ) :
    ∃ k, 0 < k ∧ k₀ ≤ k ∧ 0 < D ys k / A ys k - sampleMean (ys.map Real.log) - 1 / k := by
  have hn : ys ≠ [] := by rintro rfl; exact hv ⟨0, by simp⟩
  obtain ⟨y, hy, hmax⟩ : ∃ y ∈ ys, ∀ x ∈ ys, x ≤ y := by
    obtain ⟨y, h2, h3, -⟩ := py.max_fin hn
    exact ⟨y, h2, h3⟩
  have hle : ∀ x ∈ ys, Real.log x ≤ Real.log y := fun x h => Real.log_le_log (h0 x h) (hmax x h)
  set m := sampleMean (ys.map Real.log) with hm
  set L := Real.log y with hL
  have hgap : m < L := by
    have h1 : 0 < sampleMean (ys.map fun x => L + -1 * Real.log x) := by
      refine sampleMean_pos (fun x h => by have := hle x h; linarith) ?_
      by_contra hno
      push Not at hno
      refine hv ⟨y, fun x h => ?_⟩
      have h2 : Real.log x = Real.log y := le_antisymm (hle x h) (by have := hno x h; linarith)
      exact Real.log_injOn_pos (h0 x h) (h0 y hy) h2
    rw [sampleMean_affine hn] at h1
    linarith
  have hκ : 0 < sampleMean (ys.map fun x => if x = y then (1 : ℝ) else 0) := sampleMean_pos
    (fun x _ => by split_ifs <;> norm_num) ⟨y, hy, by simp⟩
  set κ := sampleMean (ys.map fun x => if x = y then (1 : ℝ) else 0) with hκd
  have hgap' : 0 < L - m := by linarith
  set k := max k₀ ((1 / κ + 1) / (L - m) + 1) with hkd
  have hk1 : (1 / κ + 1) / (L - m) < k := lt_of_lt_of_le (by linarith) (le_max_right _ _)
  have hk : 0 < k := lt_trans (by positivity) hk1
  refine ⟨k, hk, le_max_left _ _, ?_⟩
  have hexp : ∀ x ∈ ys, x ^ k = Real.exp (k * Real.log x) := fun x h => by rw [Real.rpow_def_of_pos (h0 x h), mul_comm]
  have hE := Real.exp_pos (k * L)
  have h3 : κ * Real.exp (k * L) ≤ A ys k := by
    rw [mul_comm, hκd, ← sampleMean_mul]
    refine sampleMean_le fun x h => ?_
    split_ifs with hxy
    · subst hxy; rw [hexp x h, mul_one]
    · rw [mul_zero]; exact (Real.rpow_pos_of_pos (h0 x h) k).le
  -- the data below the largest contribute little
  have h4 : L * A ys k ≤ Real.exp (k * L) * (1 / k) + 1 * D ys k := by
    rw [A, D, ← sampleMean_mul, ← sampleMean_affine hn]
    refine sampleMean_le fun x h => ?_
    have h9 := Real.add_one_le_exp (k * (L - Real.log x))
    have e : x ^ k = Real.exp (k * L) / Real.exp (k * (L - Real.log x)) := by
      rw [hexp x h, ← Real.exp_sub]; congr 1; ring
    have h8 : (L - Real.log x) * x ^ k ≤ Real.exp (k * L) * (1 / k) := by
      rw [e, mul_div_assoc', div_le_iff₀ (Real.exp_pos _), mul_comm (L - Real.log x), mul_assoc]
      refine mul_le_mul_of_nonneg_left ?_ hE.le
      rw [one_div_mul_eq_div, le_div_iff₀ hk]
      linarith
    linarith
  have hA := A_pos hn h0 k
  have h5 : L - 1 / κ * (1 / k) ≤ D ys k / A ys k := by
    rw [le_div_iff₀ hA]
    have h6 : Real.exp (k * L) ≤ 1 / κ * A ys k := by rw [one_div_mul_eq_div, le_div_iff₀ hκ]; linarith
    have h7 := mul_le_mul_of_nonneg_right h6 (show 0 ≤ 1 / k by positivity)
    linarith
  have h6 : (1 / κ + 1) * (1 / k) < L - m := by
    rw [mul_one_div, div_lt_iff₀ hk]
    rw [div_lt_iff₀ hgap'] at hk1
    linarith
  linarith

/-- The equation for `k` has a positive root if the data are not all equal. -/
theorem eqn1_root (h0 : ∀ y ∈ ys, 0 < y) (hv : ¬ ∃ c, ∀ y ∈ ys, y = c) :
    ∃ k, 0 < k ∧ D ys k / A ys k - sampleMean (ys.map Real.log) - 1 / k = 0 := by
  have hn : ys ≠ [] := by rintro rfl; exact hv ⟨0, by simp⟩
  obtain ⟨u, hu, h1⟩ := eqn1_small hn h0
  obtain ⟨v, -, huv, h2⟩ := eqn1_large h0 hv u
  have hc : ContinuousOn (fun k => D ys k / A ys k - sampleMean (ys.map Real.log) - 1 / k) (Set.Icc u v) := fun k hm => by
    have hk : 0 < k := hu.trans_le hm.1
    have hp : ∀ y ∈ ys, HasDerivAt (fun k : ℝ => y ^ k) (y ^ k * Real.log y) k := fun y hy => (Real.hasStrictDerivAt_const_rpow (h0 y hy) k).hasDerivAt
    have hA : ContinuousAt (fun k => A ys k) k := (hasDerivAt_mean hp).continuousAt
    have hD : ContinuousAt (fun k => D ys k) k := (hasDerivAt_mean fun y hy => (hp y hy).mul_const (Real.log y)).continuousAt
    exact (((hD.div hA (A_pos hn h0 k).ne').sub continuousAt_const).sub (continuousAt_const.div continuousAt_id hk.ne')).continuousWithinAt
  obtain ⟨k, hm, h3⟩ := intermediate_value_Icc huv hc ⟨h1.le, h2.le⟩
  exact ⟨k, hu.trans_le hm.1, h3⟩

/-- The equation for `k` has no root if the data are all equal. -/
theorem eqn1_constant (hn : ys ≠ []) {c : ℝ} (hc : ∀ y ∈ ys, y = c) (h0 : 0 < c) (k : ℝ) :
    D ys k / A ys k - sampleMean (ys.map Real.log) - 1 / k = -(1 / k) := by
  have e1 : sampleMean (ys.map Real.log) = Real.log c := by
    rw [sampleMean_congr (ψ := fun _ => Real.log c) fun x hm => by rw [hc x hm], sampleMean_const hn]
  have e2 : A ys k = c ^ k := by
    rw [A, sampleMean_congr (ψ := fun _ => c ^ k) fun x hm => by rw [hc x hm], sampleMean_const hn]
  have e3 : D ys k = c ^ k * Real.log c := by
    rw [D, sampleMean_congr (ψ := fun _ => c ^ k * Real.log c) fun x hm => by rw [hc x hm], sampleMean_const hn]
  rw [e1, e2, e3, mul_div_cancel_left₀ _ (Real.rpow_pos_of_pos h0 k).ne']
  ring

theorem mleShifted_constant (hf : SoundFinder findroot) (hn : ys ≠ []) {c : ℝ} (hc : ∀ y ∈ ys, y = c) (h0 : 0 < c) (hk : k ≠ 0)
    (loc a b : Num) : mleShifted findroot (ys.map fin) none loc none ≠ .ok (fin k, a, b) := by
  intro h
  simp only [mleShifted, Option.mem_def, if_false, reduceCtorEq, false_and, exists_false, pure_eq_ok] at h
  obtain ⟨r, h2, h⟩ := ok_of_bind h
  obtain ⟨q, h3, h4⟩ := ok_of_bind h
  obtain ⟨rfl, h8⟩ := Prod.mk.inj (Except.ok.inj h4)
  have h7 := hf _ _ _ h2
  rw [eqn1_eval hn (fun y hy => by rw [hc y hy]; exact h0) hk, zero_def, eqn1_constant hn hc h0] at h7
  have := fin.inj (Except.ok.inj h7)
  rw [neg_eq_zero, one_div, inv_eq_zero] at this
  exact hk this

end Mpsci.weibull_common

namespace Mpsci.weibull_min

open Classical Num Spec common weibull_common

variable {k loc : ℝ} {xs : List ℝ} {findroot : (Num → M Num) → Num → M Num}

/-- C31: for data that are not all equal the likelihood has a maximum, at a root of the equation that `mle` solves. -/
theorem mle_exists (hx : ∀ x ∈ xs, loc < x) (hv : ¬ ∃ c, ∀ x ∈ xs, x = c) : ∃ k s : ℝ,
    mleKEqn1 (fin k) ((xs.map fun x => x - loc).map fin) = .ok 0 ∧
    IsMle (fun θ : ℝ × ℝ => 0 < θ.1 ∧ 0 < θ.2) (fun θ => nll (xs.map fin) (fin θ.1) (fin loc) (fin θ.2)) (k, s) := by
  have hn : xs ≠ [] := by rintro rfl; exact hv ⟨0, by simp⟩
  obtain ⟨hn', h0⟩ := shifted_pos hn hx
  obtain ⟨k, hk, h1⟩ := eqn1_root h0 (by
    rintro ⟨c, hc⟩
    exact hv ⟨c + loc, fun x hm => by have := hc (x - loc) (List.mem_map_of_mem hm); linarith⟩)
  obtain ⟨s, hs, -, h2⟩ := pmean_fin hn' h0 hk
  refine ⟨k, s, by rw [eqn1_eval hn' h0 hk.ne', h1, zero_def], isMle_of (⟨hk, hs⟩ : 0 < (k, s).1 ∧ 0 < (k, s).2) (fun θ h => nll_eval hn h.1 h.2 hx) fun θ h =>
    mul_le_mul_of_nonneg_left (both_min hn' h0 hk hs h2 h1 h.1 h.2) (by positivity)⟩

/-- C31 violated: for constant data the equation that `mle` solves has no root, so with a root finder that returns only roots,
`mle` never returns a number other than 0 for `k`. -/
theorem mle_constant (hf : SoundFinder findroot) (hn : xs ≠ []) {c : ℝ} (hc : ∀ x ∈ xs, x = c) (hl : loc < c) (hk : k ≠ 0) (a b : Num) :
    mle findroot (xs.map fin) none (some (fin loc)) none ≠ .ok (fin k, a, b) := by
  rw [mle_shift fun x hm => by rw [hc x hm]; exact hl]
  refine mleShifted_constant hf (by simpa using hn) (c := c - loc) ?_ (by linarith) hk _ _ _
  intro y hy
  obtain ⟨x, hm, rfl⟩ := List.mem_map.1 hy
  rw [hc x hm]

end Mpsci.weibull_min

namespace Mpsci.weibull_max

open Classical Num Spec common weibull_common

variable {k loc : ℝ} {xs : List ℝ} {findroot : (Num → M Num) → Num → M Num}

/-- C31: for data that are not all equal the likelihood has a maximum, at a root of the equation that `mle` solves. -/
theorem mle_exists (hx : ∀ x ∈ xs, x < loc) (hv : ¬ ∃ c, ∀ x ∈ xs, x = c) : ∃ k s : ℝ,
    mleKEqn1 (fin k) ((xs.map fun x => -x + loc).map fin) = .ok 0 ∧
    IsMle (fun θ : ℝ × ℝ => 0 < θ.1 ∧ 0 < θ.2) (fun θ => nll (xs.map fin) (fin θ.1) (fin loc) (fin θ.2)) (k, s) := by
  have hn : xs ≠ [] := by rintro rfl; exact hv ⟨0, by simp⟩
  obtain ⟨hn', h0⟩ := shifted_pos hn hx
  obtain ⟨k, hk, h1⟩ := eqn1_root h0 (by
    rintro ⟨c, hc⟩
    exact hv ⟨loc - c, fun x hm => by have := hc (-x + loc) (List.mem_map_of_mem hm); linarith⟩)
  obtain ⟨s, hs, -, h2⟩ := pmean_fin hn' h0 hk
  refine ⟨k, s, by rw [eqn1_eval hn' h0 hk.ne', h1, zero_def], isMle_of (⟨hk, hs⟩ : 0 < (k, s).1 ∧ 0 < (k, s).2) (fun θ h => nll_eval hn h.1 h.2 hx) fun θ h =>
    mul_le_mul_of_nonneg_left (both_min hn' h0 hk hs h2 h1 h.1 h.2) (by positivity)⟩

/-- C31 violated: for constant data the equation that `mle` solves has no root, so with a root finder that returns only roots,
`mle` never returns a number other than 0 for `k`. -/
theorem mle_constant (hf : SoundFinder findroot) (hn : xs ≠ []) {c : ℝ} (hc : ∀ x ∈ xs, x = c) (hl : c < loc) (hk : k ≠ 0) (a b : Num) :
    mle findroot (xs.map fin) none (some (fin loc)) none ≠ .ok (fin k, a, b) := by
  rw [mle_shift fun x hm => by rw [hc x hm]; exact hl]
  refine mleShifted_constant hf (by simpa using hn) (c := -c + loc) ?_ (by linarith) hk _ _ _
  intro y hy
  obtain ⟨x, hm, rfl⟩ := List.mem_map.1 hy
  rw [hc x hm]

/-- Non-vacuity: the data 1, 2 are above 0 and below 3, and not all equal. -/
example : (∀ x ∈ [(1:ℝ), 2], 0 < x) ∧ (∀ x ∈ [(1:ℝ), 2], x < 3) ∧ ¬ ∃ c, ∀ x ∈ [(1:ℝ), 2], x = c := by
  refine ⟨by norm_num, by norm_num, ?_⟩
  rintro ⟨k, h⟩
  have h1 := h 1 (by simp)
  have h2 := h 2 (by simp)
  linarith

end Mpsci.weibull_max
