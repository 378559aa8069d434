import Verif.Lemmas.Fit.Pareto
import Verif.Spec.RootFinder
import Mathlib.Analysis.SpecialFunctions.Log.Deriv

/-! `pareto.nll` and `pareto.mle`. -/

namespace Mpsci.pareto

open Classical Num Spec common

variable {b loc s : ℝ} {xs : List ℝ} {findroot : (Num → M Num) → Num → M Num}
  {findroot2 : (Num → Num → M (Num × Num)) → Num × Num → M (Num × Num)}

/-- C30 -/
theorem nll_spec (hb : 0 < b) (hs : 0 < s) : NllIsNegSum {x | loc + s ≤ x} (logpdf · (fin b) (fin loc) (fin s))
    (nll · (fin b) (fin loc) (fin s)) :=
  nll_of_fsum (l := l b loc s) (fun _ hx => logpdf_l hb hs hx) fun _ hx => nll_unfold hb hs hx

/-- C30: data below `loc + scale` and invalid parameters are rejected. -/
theorem nll_rejects (hb : 0 < b) (hs : 0 < s) : NllRejects {x | loc + s ≤ x} (nll · (fin b) (fin loc) (fin s)) := by
  rintro xs ⟨x, hx, h⟩
  have h1 : validateXBounds (xs.map fin) (some (fin (loc + s))) none false false = .error .valueError :=
    validateXBounds_low (badLow_weak.2 ⟨x, hx, not_le.1 h⟩)
  simp only [nll, validate_ok hb hs, ok_bind, fin_add, h1]
  rfl

/-- C30 -/
theorem nll_invalid (h : ¬ (0 < b ∧ 0 < s)) (xs : List Num) : nll xs (fin b) (fin loc) (fin s) = .error .valueError := by
  simp only [nll, validate_bad h]; rfl

/-- C31: with the location fixed below the data, unless all data are equal, the estimates maximise the likelihood over
all shapes and all scales for which the data are in the support. -/
theorem mle_fixedLoc (hv : ¬ ∃ c, ∀ x ∈ xs, x = c) (hx : ∀ x ∈ xs, loc < x) : ∃ b s : ℝ,
    mle findroot findroot2 (xs.map fin) .none (.fixed (fin loc)) .none = .ok (fin b, fin loc, fin s) ∧
    IsMle (fun θ : ℝ × ℝ => 0 < θ.1 ∧ 0 < θ.2 ∧ ∀ x ∈ xs, loc + θ.2 ≤ x)
      (fun θ => nll (xs.map fin) (fin θ.1) (fin loc) (fin θ.2)) (b, s) := by
  have hn := list_nonempty hv
  obtain ⟨m, hm, hm', em⟩ := py.min_fin hn
  have hs : 0 < m - loc := by have := hx m hm; linarith
  have hge : ∀ x ∈ xs, loc + (m - loc) ≤ x := fun x h => by have := hm' x h; linarith
  have hA := meanLog_gt hv hs hge
  refine ⟨_, m - loc, ?_, isMle_of ⟨one_div_pos.2 hA, hs, hge⟩ (fun θ h => nll_eval hn h.1 h.2.1 h.2.2) ?_⟩
  · simp only [mle, bounds_weak fun x h => (hx x h).le, ok_bind, em, fin_sub, sumLog_eval hx, fsum_mean hn, mp.log_pos hs,
      one_def, fin_div _ hA.ne', pure_eq_ok]
  · rintro ⟨b', s'⟩ ⟨hb', hs', hx'⟩
    refine mul_le_mul_of_nonneg_left ?_ (by positivity)
    have h1 := mul_sub_log_min hA hb'
    have h2 := Real.log_le_log hs' (show s' ≤ m - loc by have := hx' m hm; simp only at this; linarith)
    have h3 := mul_le_mul_of_nonneg_left h2 hb'.le
    simp only at *
    linarith

/-- C31: with the scale fixed, unless all data are equal, the estimates maximise the likelihood over all shapes and all
locations for which the data are in the support. -/
theorem mle_fixedScale (hv : ¬ ∃ c, ∀ x ∈ xs, x = c) (hs : 0 < s) : ∃ b loc : ℝ,
    mle findroot findroot2 (xs.map fin) .none .none (.fixed (fin s)) = .ok (fin b, fin loc, fin s) ∧
    IsMle (fun θ : ℝ × ℝ => 0 < θ.1 ∧ ∀ x ∈ xs, θ.2 + s ≤ x)
      (fun θ => nll (xs.map fin) (fin θ.1) (fin θ.2) (fin s)) (b, loc) := by
  have hn := list_nonempty hv
  obtain ⟨m, hm, hm', em⟩ := py.min_fin hn
  have hge : ∀ x ∈ xs, m - s + s ≤ x := fun x h => by have := hm' x h; linarith
  have hgt : ∀ x ∈ xs, m - s < x := fun x h => by have := hm' x h; linarith
  have hA := meanLog_gt hv hs hge
  refine ⟨_, m - s, ?_, isMle_of ⟨one_div_pos.2 hA, hge⟩ (fun θ h => nll_eval hn h.1 hs h.2) ?_⟩
  · simp only [mle, mle.freeB, one_def, validate_ok one_pos hs, validateXBounds_all, ok_bind, em, fin_sub, sumLog_eval hgt, fsum_mean hn,
      mp.log_pos hs, fin_div _ hA.ne', pure_eq_ok]
  · rintro ⟨b', loc'⟩ ⟨hb', hx'⟩
    refine mul_le_mul_of_nonneg_left ?_ (by positivity)
    have h1 := mul_sub_log_min hA hb'
    have h2 := meanLog_mono (show loc' ≤ m - s by have := hx' m hm; simp only at this; linarith) hgt
    have h3 := mul_le_mul_of_nonneg_left h2 (show 0 ≤ b' + 1 by linarith)
    simp only at *
    linarith

/-- C31: with shape and location fixed, the scale maximises the likelihood. -/
theorem mle_fixedShapeLoc (hn : xs ≠ []) (hb : 0 < b) (hx : ∀ x ∈ xs, loc < x) : ∃ s : ℝ,
    mle findroot findroot2 (xs.map fin) (.fixed (fin b)) (.fixed (fin loc)) .none = .ok (fin b, fin loc, fin s) ∧
    IsMle (fun t : ℝ => 0 < t ∧ ∀ x ∈ xs, loc + t ≤ x) (fun t => nll (xs.map fin) (fin b) (fin loc) (fin t)) s := by
  obtain ⟨m, hm, hm', em⟩ := py.min_fin hn
  have hs : 0 < m - loc := by have := hx m hm; linarith
  refine ⟨m - loc, ?_, isMle_of ⟨hs, fun x h => by have := hm' x h; linarith⟩ (fun t h => nll_eval hn hb h.1 h.2) ?_⟩
  · simp only [mle, one_def, validate_ok hb one_pos, bounds_weak fun x h => (hx x h).le, ok_bind, em, fin_sub, pure_eq_ok]
  · rintro t ⟨ht, hx'⟩
    refine mul_le_mul_of_nonneg_left ?_ (by positivity)
    have h2 := Real.log_le_log ht (show t ≤ m - loc by have := hx' m hm; linarith)
    have h3 := mul_le_mul_of_nonneg_left h2 hb.le
    linarith

/-- C31: with shape and scale fixed, the location maximises the likelihood. -/
theorem mle_fixedShapeScale (hn : xs ≠ []) (hb : 0 < b) (hs : 0 < s) : ∃ loc : ℝ,
    mle findroot findroot2 (xs.map fin) (.fixed (fin b)) .none (.fixed (fin s)) = .ok (fin b, fin loc, fin s) ∧
    IsMle (fun t : ℝ => ∀ x ∈ xs, t + s ≤ x) (fun t => nll (xs.map fin) (fin b) (fin t) (fin s)) loc := by
  obtain ⟨m, hm, hm', em⟩ := py.min_fin hn
  refine ⟨m - s, ?_, isMle_of (fun x h => by have := hm' x h; linarith) (fun t h => nll_eval hn hb hs h) ?_⟩
  · simp only [mle, zero_def, validate_ok hb hs, ok_bind, em, fin_sub, pure_eq_ok]
  · rintro t hx'
    refine mul_le_mul_of_nonneg_left ?_ (by positivity)
    have h2 := meanLog_mono (xs := xs) (show t ≤ m - s by have := hx' m hm; linarith) fun x h => by have := hm' x h; linarith
    have h3 := mul_le_mul_of_nonneg_left h2 (show 0 ≤ b + 1 by linarith)
    linarith

theorem eqn_eval (hn : xs ≠ []) {m : ℝ} (hm : ∀ x ∈ xs, m ≤ x) (hs : 0 < s) :
    mleEqn (xs.map fin) (fin m) (fin b) (fin s) = .ok (fin (xs.length * (b / s - (b + 1) *
      sampleMean (xs.map fun x => 1 / (x - m + s))))) := by
  have h1 : (xs.map fin).mapM (fun t => fin 1 /. (t - fin m + fin s)) = .ok ((xs.map fun x => 1 / (x - m + s)).map fin) := by
    refine mapM_logpdf fun x hx => ?_
    rw [fin_sub, fin_add, fin_div _ (show x - m + s ≠ 0 by have := hm x hx; linarith)]
  simp only [mleEqn, h1, ok_bind, stats.len, List.length_map, fin_mul, fin_div _ hs.ne', mp.fsum_fin, one_def, fin_add, fin_sub,
    pure_eq_ok, sum_eq_mean hn]
  congr 2; ring

/-- C31: with the shape fixed, if the root finder returns a positive scale, the estimates maximise the likelihood over all
locations and scales for which the data are in the support.  Missing: that the secant method returns a root, and that it
is positive. -/
theorem mle_fixedShape_partial (hf : SoundFinder findroot) (hn : xs ≠ []) (hb : 0 < b) {l : Num}
    (h : mle findroot findroot2 (xs.map fin) (.fixed (fin b)) .none .none = .ok (fin b, l, fin s)) (hs : 0 < s) :
    ∃ loc : ℝ, l = fin loc ∧ IsMle (fun θ : ℝ × ℝ => 0 < θ.2 ∧ ∀ x ∈ xs, θ.1 + θ.2 ≤ x)
      (fun θ => nll (xs.map fin) (fin b) (fin θ.1) (fin θ.2)) (loc, s) := by
  obtain ⟨m, hm, hm', em⟩ := py.min_fin hn
  simp only [mle, zero_def, one_def, validate_ok hb one_pos, validateXBounds_all, ok_bind, em] at h
  rcases hr : findroot (fun scale => mleEqn (xs.map fin) (fin m) (fin b) scale) Param.none.start with _ | r
  · rw [hr] at h; exact absurd h (by simp [bind, Except.bind])
  rw [hr, ok_bind, pure_eq_ok] at h
  obtain ⟨-, h2⟩ := Prod.mk.inj (Except.ok.inj h)
  obtain ⟨rfl, rfl⟩ := Prod.mk.inj h2
  have h0 := hf _ _ _ hr
  rw [eqn_eval hn hm' hs, zero_def] at h0
  have h0 := (mul_eq_zero.1 (fin.inj (Except.ok.inj h0))).resolve_left (length_pos hn).ne'
  refine ⟨m - s, fin_sub _ _, isMle_of ⟨hs, fun x hx => by have := hm' x hx; simp only; linarith⟩
    (fun θ h => nll_eval hn hb h.1 h.2) ?_⟩
  rintro ⟨loc', s'⟩ ⟨hs', hx'⟩
  refine mul_le_mul_of_nonneg_left ?_ (by positivity)
  simp only at *
  have h2 := meanLog_mono (xs := xs) (loc := m - s') (loc' := loc') (by have := hx' m hm; linarith)
    fun x hx => by have := hm' x hx; linarith
  have h3 := mul_le_mul_of_nonneg_left h2 (show 0 ≤ b + 1 by linarith)
  have h4 : sampleMean (xs.map fun x => Real.log (x - (m - s)) + (s * (Real.log s' - Real.log s)) * (1 / (x - m + s))) ≤
      sampleMean (xs.map fun x => Real.log (x - (m - s'))) := sampleMean_le fun x hx => by
    have := log_add_tangent (u := x - m) (by have := hm' x hx; linarith) hs hs'
    rw [show x - (m - s) = x - m + s by ring, show x - (m - s') = x - m + s' by ring]
    calc _ = Real.log (x - m + s) + s / (x - m + s) * (Real.log s' - Real.log s) := by ring
      _ ≤ _ := this
  rw [sampleMean_add, sampleMean_mul] at h4
  have h5 := mul_le_mul_of_nonneg_left h4 (show 0 ≤ b + 1 by linarith)
  have h6 : (b + 1) * sampleMean (xs.map fun x => 1 / (x - m + s)) = b / s := by linarith
  have h7 : (b + 1) * (s * (Real.log s' - Real.log s) * sampleMean (xs.map fun x => 1 / (x - m + s))) =
      b * (Real.log s' - Real.log s) := by
    rw [show ∀ A B C : ℝ, A * (B * C) = B * (A * C) by intros; ring, h6]
    field_simp
  rw [mul_add, h7] at h5
  linarith

/-- C31: all parameters fixed are returned, if they are valid and the data are in the support; otherwise ValueError. -/
theorem mle_allFixed (xs : List ℝ) : mle findroot findroot2 (xs.map fin) (.fixed (fin b)) (.fixed (fin loc)) (.fixed (fin s)) =
    if 0 < b ∧ 0 < s ∧ ∀ x ∈ xs, loc + s ≤ x then .ok (fin b, fin loc, fin s) else .error .valueError := by
  by_cases h : 0 < b ∧ 0 < s
  · by_cases hx : ∀ x ∈ xs, loc + s ≤ x
    · rw [if_pos ⟨h.1, h.2, hx⟩]
      simp only [mle, validate_ok h.1 h.2, ok_bind, fin_add, bounds_weak hx, pure_eq_ok]
    · rw [if_neg fun h' => hx h'.2.2]
      push Not at hx
      obtain ⟨x, hm, hx⟩ := hx
      have h1 : validateXBounds (xs.map fin) (some (fin (loc + s))) (some pinf) false false = .error .valueError :=
        validateXBounds_low (badLow_weak.2 ⟨x, hm, hx⟩)
      simp only [mle, validate_ok h.1 h.2, ok_bind, fin_add, h1]; rfl
  · rw [if_neg fun h' => h ⟨h'.1, h'.2.1⟩]
    simp only [mle, validate_bad h]; rfl

/-- C31: with all parameters free, if the root finder returns a positive shape and scale, they solve the likelihood
equations along the edge `loc = min x - scale` (on which every maximum lies, because the likelihood increases with `loc`),
and the shape maximises the likelihood for that scale and location.  Missing: that there is a maximum, and that a
solution of the equations is one. -/
theorem mle_allFree_partial (hf : SoundFinder2 findroot2) (hn : xs ≠ []) {l : Num}
    (h : mle findroot findroot2 (xs.map fin) .none .none .none = .ok (fin b, l, fin s)) (hb : 0 < b) (hs : 0 < s) :
    ∃ m ∈ xs, (∀ x ∈ xs, m ≤ x) ∧ l = fin (m - s) ∧
      IsMle (fun t : ℝ => 0 < t) (fun t => nll (xs.map fin) (fin t) (fin (m - s)) (fin s)) b ∧
      IsStationary (fun t => nll (xs.map fin) (fin b) (fin (m - t)) (fin t)) s := by
  obtain ⟨m, hm, hm', em⟩ := py.min_fin hn
  simp only [mle, validateXBounds_all, ok_bind, em] at h
  rcases hr : findroot2 (fun b scale => mleEqns (xs.map fin) (fin m) b scale) (Param.none.start, Param.none.start) with _ | r
  · rw [hr] at h; exact absurd h (by simp [bind, Except.bind])
  rw [hr, ok_bind, pure_eq_ok] at h
  obtain ⟨r1, r2⟩ := r
  obtain ⟨rfl, h2⟩ := Prod.mk.inj (Except.ok.inj h)
  obtain ⟨rfl, rfl⟩ := Prod.mk.inj h2
  have h0 := hf _ _ _ hr
  have g1 : (xs.map fin).mapM (fun t => mp.log (t - fin m + fin s)) = .ok ((xs.map fun x => Real.log (x - m + s)).map fin) := by
    refine mapM_logpdf fun x hx => ?_
    rw [fin_sub, fin_add, mp.log_pos (show 0 < x - m + s by have := hm' x hx; linarith)]
  have g2 : (xs.map fin).mapM (fun t => fin 1 /. (t - fin m + fin s)) = .ok ((xs.map fun x => 1 / (x - m + s)).map fin) := by
    refine mapM_logpdf fun x hx => ?_
    rw [fin_sub, fin_add, fin_div _ (show x - m + s ≠ 0 by have := hm' x hx; linarith)]
  simp only [mleEqns, g1, g2, ok_bind, stats.len, List.length_map, fin_mul, fin_div _ hs.ne', fin_div _ hb.ne', mp.fsum_fin,
    mp.log_pos hs, one_def, fin_add, fin_sub, pure_eq_ok, sum_eq_mean hn, zero_def] at h0
  obtain ⟨e1, e2⟩ := Prod.mk.inj (Except.ok.inj h0)
  have e1 := fin.inj e1
  have e2 := fin.inj e2
  have hl := length_pos hn
  have e1' : sampleMean (xs.map fun x => Real.log (x - m + s)) - Real.log s = 1 / b := by
    have : (xs.length:ℝ) * (sampleMean (xs.map fun x => Real.log (x - m + s)) - Real.log s - 1 / b) = 0 := by
      rw [← neg_eq_zero, ← e1]; ring
    have := (mul_eq_zero.1 this).resolve_left hl.ne'
    linarith
  have e2' : (b + 1) * sampleMean (xs.map fun x => 1 / (x - m + s)) - b * (1 / s) = 0 := by
    have : (xs.length:ℝ) * ((b + 1) * sampleMean (xs.map fun x => 1 / (x - m + s)) - b * (1 / s)) = 0 := by
      rw [← neg_eq_zero, ← e2]; ring
    exact (mul_eq_zero.1 this).resolve_left hl.ne'
  refine ⟨m, hm, hm', fin_sub _ _, ?_, ?_⟩
  · refine isMle_of hb (fun t ht => nll_eval hn ht hs fun x hx => by have := hm' x hx; linarith) fun t ht => ?_
    refine mul_le_mul_of_nonneg_left ?_ (by positivity)
    have h1 := mul_sub_log_min (one_div_pos.2 hb) ht
    rw [one_div_one_div, ← e1'] at h1
    have : ∀ x, x - (m - s) = x - m + s := fun x => by ring
    simp only [this]
    linarith
  · refine ⟨fun t => xs.length * ((b + 1) * sampleMean (xs.map fun x => Real.log (x - m + t)) - Real.log b - b * Real.log t),
      ?_, ?_⟩
    · filter_upwards [lt_mem_nhds hs] with t ht
      rw [nll_eval hn hb ht fun x hx => by have := hm' x hx; linarith]
      have : ∀ x, x - (m - t) = x - m + t := fun x => by ring
      simp only [this]
    · have hd : HasDerivAt (fun t => sampleMean (xs.map fun x => Real.log (x - m + t)))
          (sampleMean (xs.map fun x => 1 / (x - m + s))) s := by
        refine hasDerivAt_mean fun x hx => ?_
        have h1 : x - m + s ≠ 0 := by have := hm' x hx; linarith
        exact ((hasDerivAt_id s).const_add (x - m)).log h1
      refine ((((hd.const_mul (b + 1)).sub_const (Real.log b)).sub ((Real.hasDerivAt_log hs.ne').const_mul b)).const_mul
        (xs.length:ℝ)).congr_deriv ?_
      rw [← one_div, e2', mul_zero]

/-- C31: `mle` with location and scale both fixed ignores the fixed location: it returns `min x - scale` instead. -/
theorem mle_ignores_loc (hv : ¬ ∃ c, ∀ x ∈ xs, x = c) (hs : 0 < s) : ∃ b m : ℝ, m ∈ xs ∧ (∀ x ∈ xs, m ≤ x) ∧ ∀ loc : ℝ,
    mle findroot findroot2 (xs.map fin) .none (.fixed (fin loc)) (.fixed (fin s)) = .ok (fin b, fin (m - s), fin s) := by
  have hn := list_nonempty hv
  obtain ⟨m, hm, hm', em⟩ := py.min_fin hn
  have hge : ∀ x ∈ xs, m - s + s ≤ x := fun x h => by have := hm' x h; linarith
  have hgt : ∀ x ∈ xs, m - s < x := fun x h => by have := hm' x h; linarith
  have hA := meanLog_gt hv hs hge
  refine ⟨1 / (sampleMean (xs.map fun x => Real.log (x - (m - s))) - Real.log s), m, hm, hm', fun loc => ?_⟩
  simp only [mle, mle.freeB, one_def, validate_ok one_pos hs, validateXBounds_all, ok_bind, em, fin_sub, sumLog_eval hgt, fsum_mean hn,
    mp.log_pos hs, fin_div _ hA.ne', pure_eq_ok]

/-- C31: so the estimate for the data 2, 4 with `loc = 0` and `scale = 1` fixed has location 1. -/
theorem mle_ignores_loc_example : ∃ b : ℝ,
    mle findroot findroot2 [fin 2, fin 4] .none (.fixed (fin 0)) (.fixed (fin 1)) = .ok (fin b, fin 1, fin 1) := by
  obtain ⟨b, m, hm, hm', h⟩ := mle_ignores_loc (findroot := findroot) (findroot2 := findroot2) (xs := [2, 4]) (s := 1)
    (by rintro ⟨c, h⟩; have h1 := h 2 (by simp); have h2 := h 4 (by simp); linarith) one_pos
  have e : m = 2 := le_antisymm (hm' 2 (by simp)) (by
    rcases List.mem_cons.1 hm with h | h
    · exact h.ge
    · rw [List.mem_singleton.1 h]; norm_num)
  refine ⟨b, ?_⟩
  have := h 0
  rw [e, show (2:ℝ) - 1 = 1 by norm_num] at this
  exact this

/-- C31: with shape and location fixed and an observation equal to the location, the scale 0 is returned, which the other
functions reject. -/
theorem mle_zeroScale (hb : 0 < b) (hx : ∀ x ∈ xs, loc ≤ x) (hm : loc ∈ xs) :
    mle findroot findroot2 (xs.map fin) (.fixed (fin b)) (.fixed (fin loc)) .none = .ok (fin b, fin loc, fin 0) ∧
    ∀ ys, nll ys (fin b) (fin loc) (fin 0) = .error .valueError := by
  obtain ⟨m, hm1, hm', em⟩ := py.min_fin (List.ne_nil_of_mem hm)
  have e : m = loc := le_antisymm (hm' loc hm) (hx m hm1)
  refine ⟨?_, nll_invalid fun h => lt_irrefl _ h.2⟩
  simp only [mle, one_def, validate_ok hb one_pos, bounds_weak hx, ok_bind, em, fin_sub, pure_eq_ok, e, sub_self]

/-- C31: if all data are equal there is no estimate of the shape: division by zero. -/
theorem mle_constant {c : ℝ} (hn : xs ≠ []) (hc : ∀ x ∈ xs, x = c) (hs : 0 < s) :
    mle findroot findroot2 (xs.map fin) .none .none (.fixed (fin s)) = .error .zeroDivision ∧
    (loc < c → mle findroot findroot2 (xs.map fin) .none (.fixed (fin loc)) .none = .error .zeroDivision) := by
  obtain ⟨m, hm, hm', em⟩ := py.min_fin hn
  have e : m = c := hc m hm
  have hconst : ∀ l : ℝ, sampleMean (xs.map fun x => Real.log (x - l)) = Real.log (c - l) := fun l => by
    rw [sampleMean_congr (ψ := fun _ => Real.log (c - l)) fun x hx => by rw [hc x hx], sampleMean_const hn]
  subst e
  constructor
  · have hgt : ∀ x ∈ xs, m - s < x := fun x h => by rw [hc x h]; linarith
    simp only [mle, mle.freeB, one_def, validate_ok one_pos hs, validateXBounds_all, ok_bind, em, fin_sub, sumLog_eval hgt,
      fsum_mean hn, mp.log_pos hs, hconst, sub_sub_cancel, sub_self, fin_div_zero]
    rfl
  · intro hl
    have hgt : ∀ x ∈ xs, loc < x := fun x h => by rw [hc x h]; exact hl
    simp only [mle, one_def, bounds_weak fun x h => (hgt x h).le, ok_bind, em, fin_sub, sumLog_eval hgt, fsum_mean hn,
      mp.log_pos (sub_pos.2 hl), hconst, sub_self, fin_div_zero]
    rfl

/-- Non-vacuity: the data 1, 3, 8 with location 0. -/
example : (¬ ∃ c : ℝ, ∀ x ∈ [(1:ℝ), 3, 8], x = c) ∧ (∀ x ∈ [(1:ℝ), 3, 8], 0 < x) ∧ ∃ f, SoundFinder f := by
  refine ⟨?_, ?_, exists_soundFinder.imp fun _ h => h.1⟩
  · rintro ⟨c, h⟩
    have h1 := h 1 (by simp)
    have h2 := h 3 (by simp)
    linarith
  · simp

/-- Non-vacuity of `mle_fixedShape_partial`: for the data 0, 8 and `b = 3` the equation has the root `s = 8`. -/
example : mleEqn ([0, 8].map fin) (fin 0) (fin 3) (fin 8) = .ok 0 := by
  rw [eqn_eval (by simp) (by simp) (by norm_num)]
  norm_num [sampleMean, zero_def]
  rfl

end Mpsci.pareto
