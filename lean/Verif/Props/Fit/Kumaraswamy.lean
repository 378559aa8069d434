import Verif.Lemmas.Fit.Kumaraswamy
import Verif.Spec.RootFinder
import Mathlib.Analysis.SpecialFunctions.Pow.Asymptotics
import Mathlib.Analysis.SpecialFunctions.Trigonometric.DerivHyp

/-! `kumaraswamy.nll` and `kumaraswamy.mle`. -/

namespace Mpsci.kumaraswamy

open Classical Num Spec common

variable {a b : ℝ} {xs : List ℝ} {findroot : (Num → M Num) → Num → M Num} {p : Param}

/-- C30 -/
theorem nll_spec (ha : 0 < a) (hb : 0 < b) : NllIsNegSum (Set.Ioo 0 1) (logpdf · (fin a) (fin b)) (nll · (fin a) (fin b)) :=
  nll_of_fsum (l := l a b) (fun _ hx => logpdf_l ha hb hx) fun _ hx => nll_unfold ha hb hx

/-- C30: data outside (0, 1) are rejected. -/
theorem nll_rejects (a b : Num) : NllRejects (Set.Ioo 0 1) (nll · a b) := fun xs h => by
  simp only [nll, zero_def, one_def, bounds_bad h]; rfl

/-- C30 -/
theorem nll_invalid (h : ¬ (0 < a ∧ 0 < b)) (xs : List ℝ) : nll (xs.map fin) (fin a) (fin b) = .error .valueError := by
  by_cases hx : ∀ x ∈ xs, x ∈ Set.Ioo (0:ℝ) 1
  · simp only [nll, zero_def, one_def, bounds hx, ok_bind, validate_bad h]; rfl
  · push Not at hx
    exact nll_rejects _ _ xs hx

/-- C31: with `a` fixed, the estimate of `b` maximises the likelihood. -/
theorem mle_fixedA (hn : xs ≠ []) (hx : ∀ x ∈ xs, x ∈ Set.Ioo (0:ℝ) 1) (ha : 0 < a) : ∃ b : ℝ,
    mle findroot (xs.map fin) (.fixed (fin a)) none = .ok (fin a, fin b) ∧
    IsMle (fun b : ℝ => 0 < b) (fun b => nll (xs.map fin) (fin a) (fin b)) b := by
  have hB := B_neg hn ha hx
  have h1 := (length_pos hn).ne'
  obtain ⟨e1, e2⟩ := sumlog_eval hn hx
  refine ⟨-1 / B xs a, ?_, isMle_of (div_pos_of_neg_of_neg (by norm_num) hB) (fun b hb => nll_eval hn ha hb hx) fun b hb =>
    mul_le_mul_of_nonneg_left (b_min hB hb) (by positivity)⟩
  simp only [mle, zero_def, one_def, bounds hx, ok_bind, e1, validate_ok ha one_pos, S2_eval hn ha hx, len_fin, neg_fin,
    fin_div _ (mul_ne_zero h1 hB.ne), pure_eq_ok]
  congr 3
  field_simp

/-- C31: with `b` fixed, if the root finder returns a positive `a`, it maximises the likelihood, whatever the starting
value.  Missing: that the secant method returns a root, and that it is positive. -/
theorem mle_fixedB_partial (hf : SoundFinder findroot) (hp : ∀ v, p ≠ .fixed v) (hn : xs ≠ [])
    (hx : ∀ x ∈ xs, x ∈ Set.Ioo (0:ℝ) 1) (hb : 0 < b) {b' : Num}
    (h : mle findroot (xs.map fin) p (some (fin b)) = .ok (fin a, b')) (ha : 0 < a) :
    b' = fin b ∧ IsMle (fun t : ℝ => 0 < t) (fun t => nll (xs.map fin) (fin t) (fin b)) a := by
  obtain ⟨e1, e2⟩ := sumlog_eval hn hx
  have h1 : ∃ r, findroot (fun t => mleAEqnBFixed t (fin b) (xs.map fin) (fin (xs.length * sampleMean (xs.map Real.log)))) p.start = .ok r ∧
      (.ok (r, fin b) : M (Num × Num)) = .ok (fin a, b') := by
    cases p with
    | fixed v => exact absurd rfl (hp v)
    | none | initial v =>
      simp only [mle, zero_def, bounds hx, ok_bind, one_def, e1, e2, validate_ok one_pos hb] at h
      obtain ⟨r, h1, h2⟩ := ok_of_bind h
      exact ⟨r, h1, h2⟩
  obtain ⟨r, hr, h2⟩ := h1
  obtain ⟨rfl, rfl⟩ := Prod.mk.inj (Except.ok.inj h2)
  have h0 := hf _ _ _ hr
  rw [aEqnBFixed_eval hn ha hx, zero_def] at h0
  have h0 := (mul_eq_zero.1 (fin.inj (Except.ok.inj h0))).resolve_left (length_pos hn).ne'
  exact ⟨rfl, isMle_of ha (fun t ht => nll_eval hn ht hb hx) fun t ht =>
    mul_le_mul_of_nonneg_left (a_min hn ha hb hx h0 ht) (by positivity)⟩

/-- The mean of `x^a (log x)²/(1 - x^a)²`. -/
noncomputable def V (xs : List ℝ) (a : ℝ) : ℝ := sampleMean (xs.map fun x => x ^ a / (1 - x ^ a) ^ 2 * Real.log x ^ 2)

theorem hasDerivAt_B (ha : 0 < a) (hx : ∀ x ∈ xs, x ∈ Set.Ioo (0:ℝ) 1) : HasDerivAt (fun a => B xs a) (-S xs a) a := by
  have hB : HasDerivAt (fun a => B xs a) (sampleMean (xs.map fun x => -1 * (x ^ a * Real.log x / (1 - x ^ a)))) a := by
    refine hasDerivAt_mean fun x hm => ?_
    have h2 := rpow_lt ha (hx x hm).1.le (hx x hm).2
    have h3 := (Real.hasStrictDerivAt_const_rpow (hx x hm).1 a).hasDerivAt
    exact ((h3.const_sub 1).log h2.ne').congr_deriv (by ring)
  rw [sampleMean_mul, neg_one_mul] at hB
  exact hB

theorem hasDerivAt_S (ha : 0 < a) (hx : ∀ x ∈ xs, x ∈ Set.Ioo (0:ℝ) 1) : HasDerivAt (fun a => S xs a) (V xs a) a := by
  refine hasDerivAt_mean fun x hm => ?_
  have h2 := (rpow_lt ha (hx x hm).1.le (hx x hm).2).ne'
  have h3 := (Real.hasStrictDerivAt_const_rpow (hx x hm).1 a).hasDerivAt
  refine ((h3.mul_const (Real.log x)).div (h3.const_sub 1) h2).congr_deriv ?_
  field_simp
  ring

/-- The profile likelihood, in which `b` is the best one for `a`, is concave. -/
theorem profile_deriv_nonpos (hn : xs ≠ []) (hx : ∀ x ∈ xs, x ∈ Set.Ioo (0:ℝ) 1) (ha : 0 < a) :
    -1 / a ^ 2 + V xs a + V xs a / B xs a + S xs a ^ 2 / B xs a ^ 2 ≤ 0 := by
  have hB := B_neg hn ha hx
  have h1 : V xs a ≤ 1 / a ^ 2 := by
    have h2 : V xs a ≤ sampleMean (xs.map fun _ => 1 / a ^ 2) := sampleMean_le fun x hm => by
      have h3 := rpow_lt ha (hx x hm).1.le (hx x hm).2
      have hw := Real.log_neg (hx x hm).1 (hx x hm).2
      -- `u ≤ 2 sinh(u/2)` for `u = -a log x`
      have h4 : -(a * Real.log x) / 2 ≤ Real.sinh (-(a * Real.log x) / 2) := Real.self_le_sinh_iff.2 (by nlinarith)
      rw [Real.sinh_eq] at h4
      set y := Real.exp (-(-(a * Real.log x) / 2)) with hy
      have hy0 : 0 < y := Real.exp_pos _
      have e1 : Real.exp (-(a * Real.log x) / 2) = 1 / y := by rw [hy, Real.exp_neg, one_div, inv_inv]
      have e2 : x ^ a = y ^ 2 := by
        rw [Real.rpow_def_of_pos (hx x hm).1, hy, ← Real.exp_nat_mul]; congr 1; push_cast; ring
      rw [e1] at h4
      rw [e2] at h3 ⊢
      have h5 : -(a * Real.log x) * y ≤ 1 - y ^ 2 := by
        have h6 : -(a * Real.log x) ≤ 1 / y - y := by linarith
        have h7 := mul_le_mul_of_nonneg_right h6 hy0.le
        rw [sub_mul, one_div_mul_cancel hy0.ne'] at h7
        linarith
      have h8 : (-(a * Real.log x) * y) ^ 2 ≤ (1 - y ^ 2) ^ 2 := pow_le_pow_left₀ (mul_nonneg (by nlinarith) hy0.le) h5 2
      rw [div_mul_eq_mul_div, div_le_div_iff₀ (by positivity) (by positivity)]
      nlinarith
    rwa [sampleMean_const hn] at h2
  set lam := S xs a / -B xs a with hlam
  have h2 : sampleMean (xs.map fun x => 2 * lam * (x ^ a * Real.log x / (1 - x ^ a))) ≤
      sampleMean (xs.map fun x => -lam ^ 2 * Real.log (1 - x ^ a) + x ^ a / (1 - x ^ a) ^ 2 * Real.log x ^ 2) := by
    refine sampleMean_le fun x hm => ?_
    have h3 := rpow_lt ha (hx x hm).1.le (hx x hm).2
    have hq := Real.rpow_pos_of_pos (hx x hm).1 a
    have h4 : Real.log (1 - x ^ a) ≤ -x ^ a := by have := Real.log_le_sub_one_of_pos h3; linarith
    have h5 := mul_le_mul_of_nonneg_left h4 (sq_nonneg lam)
    have e : lam ^ 2 * x ^ a + x ^ a / (1 - x ^ a) ^ 2 * Real.log x ^ 2 - 2 * lam * (x ^ a * Real.log x / (1 - x ^ a)) =
        x ^ a * (lam - Real.log x / (1 - x ^ a)) ^ 2 := by field_simp; ring
    have h6 : 0 ≤ x ^ a * (lam - Real.log x / (1 - x ^ a)) ^ 2 := by positivity
    linarith
  rw [sampleMean_mul, sampleMean_add, sampleMean_mul, show sampleMean (xs.map fun x => Real.log (1 - x ^ a)) = B xs a from rfl,
    show sampleMean (xs.map fun x => x ^ a * Real.log x / (1 - x ^ a)) = S xs a from rfl,
    show sampleMean (xs.map fun x => x ^ a / (1 - x ^ a) ^ 2 * Real.log x ^ 2) = V xs a from rfl] at h2
  have hS : S xs a = lam * -B xs a := by rw [hlam, div_mul_cancel₀]; linarith
  rw [hS] at h2
  have h3 : lam ^ 2 ≤ V xs a / -B xs a := by
    rw [le_div_iff₀ (by linarith)]; linarith
  have e1 : S xs a ^ 2 / B xs a ^ 2 = lam ^ 2 := by rw [hlam, div_pow, neg_sq]
  rw [e1, neg_div]
  rw [div_neg] at h3
  linarith

/-- A zero of the profile equation is the maximum over both parameters. -/
theorem isMle_ab (hn : xs ≠ []) (hx : ∀ x ∈ xs, x ∈ Set.Ioo (0:ℝ) 1) (ha : 0 < a)
    (h : 1 / a + sampleMean (xs.map Real.log) + (1 - -1 / B xs a) * S xs a = 0) :
    IsMle (fun θ : ℝ × ℝ => 0 < θ.1 ∧ 0 < θ.2) (fun θ => nll (xs.map fin) (fin θ.1) (fin θ.2)) (a, -1 / B xs a) := by
  set E : ℝ → ℝ := fun a => 1 / a + sampleMean (xs.map Real.log) + (1 - -1 / B xs a) * S xs a with hEd
  have hB : ∀ a, 0 < a → B xs a < 0 := fun a ha => B_neg hn ha hx
  have hE : ∀ a, 0 < a → HasDerivAt E (-1 / a ^ 2 + V xs a + V xs a / B xs a + S xs a ^ 2 / B xs a ^ 2) a := fun a ha => by
    have h1 : HasDerivAt (fun a : ℝ => 1 / a) (-1 / a ^ 2) a := by
      simpa [one_div, neg_div] using hasDerivAt_inv ha.ne'
    have hb := (hB a ha).ne
    have h2 : HasDerivAt (fun a : ℝ => -1 / B xs a) (-(S xs a / B xs a ^ 2)) a := by
      refine ((hasDerivAt_const a (-1:ℝ)).div (hasDerivAt_B ha hx) hb).congr_deriv ?_
      ring
    refine ((h1.add_const (sampleMean (xs.map Real.log))).add ((h2.const_sub 1).mul (hasDerivAt_S ha hx))).congr_deriv ?_
    field_simp
    ring
  have hP : ∀ a, 0 < a → HasDerivAt (fun a => N xs a (-1 / B xs a)) (-E a) a := fun a ha => by
    have hb := (hB a ha).ne
    have h1 : HasDerivAt (fun a => -Real.log a + Real.log (B xs a) - (a - 1) * sampleMean (xs.map Real.log) + (1 + B xs a)) (-E a) a := by
      refine ((((Real.hasDerivAt_log ha.ne').neg.add ((hasDerivAt_B ha hx).log hb)).sub
        (((hasDerivAt_id a).sub_const 1).mul_const (sampleMean (xs.map Real.log)))).add ((hasDerivAt_B ha hx).const_add 1)).congr_deriv ?_
      simp only [hEd]
      field_simp
      ring
    refine h1.congr_of_eventuallyEq ?_
    filter_upwards [lt_mem_nhds ha] with t ht
    have hb := (hB t ht).ne
    have e : (-1 / B xs t - 1) * B xs t = -(1 + B xs t) := by field_simp; ring
    rw [N, e, Real.log_div (by norm_num) hb, Real.log_neg_eq_log, Real.log_one]
    ring
  have hanti : AntitoneOn E (Set.Ioi 0) := by
    refine antitoneOn_of_deriv_nonpos (convex_Ioi 0) (fun a ha => (hE a ha).continuousAt.continuousWithinAt)
      (fun a ha => ((hE a (interior_subset ha)).differentiableAt).differentiableWithinAt) fun a ha => ?_
    rw [(hE a (interior_subset ha)).deriv]
    exact profile_deriv_nonpos hn hx (interior_subset ha)
  have h0 : E a = 0 := h
  have hmin : ∀ t, 0 < t → N xs a (-1 / B xs a) ≤ N xs t (-1 / B xs t) := fun t ht =>
    min_of_deriv_sign (h := fun a => N xs a (-1 / B xs a)) hP ha
      (fun u hu hua => by have := hanti hu ha hua.le; linarith) (fun u hu => by have := hanti ha (ha.trans hu) hu.le; linarith) ht
  exact isMle_of (⟨ha, div_pos_of_neg_of_neg (by norm_num) (hB a ha)⟩ : 0 < (a, -1 / B xs a).1 ∧ 0 < (a, -1 / B xs a).2)
    (fun _ h => nll_eval hn h.1 h.2 hx)
    fun θ hθ => mul_le_mul_of_nonneg_left ((hmin θ.1 hθ.1).trans (b_min (hB θ.1 hθ.1) hθ.2)) (by positivity)

/-- C31: with nothing fixed, if the root finder returns a positive `a`, the estimates maximise the likelihood over both
parameters.  Missing: that the secant method returns a root, and that it is positive. -/
theorem mle_free_partial (hf : SoundFinder findroot) (hp : ∀ v, p ≠ .fixed v) (hn : xs ≠ [])
    (hx : ∀ x ∈ xs, x ∈ Set.Ioo (0:ℝ) 1) {b' : Num}
    (h : mle findroot (xs.map fin) p none = .ok (fin a, b')) (ha : 0 < a) :
    ∃ b : ℝ, b' = fin b ∧ IsMle (fun θ : ℝ × ℝ => 0 < θ.1 ∧ 0 < θ.2) (fun θ => nll (xs.map fin) (fin θ.1) (fin θ.2)) (a, b) := by
  obtain ⟨e1, e2⟩ := sumlog_eval hn hx
  have hB := B_neg hn ha hx
  have h3 := (length_pos hn).ne'
  have h1 : ∃ r, findroot (fun t => mleAEqn t (xs.map fin) (fin (xs.length * sampleMean (xs.map Real.log)))) p.start = .ok r ∧
      (do return (r, ← -stats.len (xs.map fin) /. (← mleS2 r (xs.map fin))) : M (Num × Num)) = .ok (fin a, b') := by
    cases p with
    | fixed v => exact absurd rfl (hp v)
    | none | initial v =>
      simp only [mle, zero_def, bounds hx, ok_bind, one_def, e1, e2] at h
      obtain ⟨r, h1, h2⟩ := ok_of_bind h
      exact ⟨r, h1, h2⟩
  obtain ⟨r, hr, h2⟩ := h1
  obtain ⟨s2, h4, h5⟩ := ok_of_bind h2
  obtain ⟨q, h6, h7⟩ := ok_of_bind h5
  obtain ⟨rfl, rfl⟩ := Prod.mk.inj (Except.ok.inj h7)
  have h0 := hf _ _ _ hr
  rw [aEqn_eval hn ha hx, zero_def] at h0
  have h0 := (mul_eq_zero.1 (fin.inj (Except.ok.inj h0))).resolve_left h3
  rw [S2_eval hn ha hx] at h4
  obtain rfl := Except.ok.inj h4
  rw [len_fin, neg_fin, fin_div _ (mul_ne_zero h3 hB.ne)] at h6
  refine ⟨-1 / B xs a, ?_, isMle_ab hn hx ha h0⟩
  rw [← Except.ok.inj h6]; congr 1; field_simp

/-- For constant data the profile equation has no zero. -/
theorem profile_constant (hn : xs ≠ []) {k : ℝ} (hk : k ∈ Set.Ioo (0:ℝ) 1) (h : ∀ x ∈ xs, x = k) (ha : 0 < a) :
    0 < 1 / a + sampleMean (xs.map Real.log) + (1 - -1 / B xs a) * S xs a := by
  have e1 : sampleMean (xs.map Real.log) = Real.log k := by
    rw [sampleMean_congr (ψ := fun _ => Real.log k) fun x hm => by rw [h x hm], sampleMean_const hn]
  have e2 : B xs a = Real.log (1 - k ^ a) := by
    rw [B, sampleMean_congr (ψ := fun _ => Real.log (1 - k ^ a)) fun x hm => by rw [h x hm], sampleMean_const hn]
  have e3 : S xs a = k ^ a * Real.log k / (1 - k ^ a) := by
    rw [S, sampleMean_congr (ψ := fun _ => k ^ a * Real.log k / (1 - k ^ a)) fun x hm => by rw [h x hm], sampleMean_const hn]
  have hq1 : 0 < 1 - k ^ a := rpow_lt ha hk.1.le hk.2
  have hq : 0 < k ^ a := Real.rpow_pos_of_pos hk.1 a
  have hw := Real.log_neg hk.1 hk.2
  have hL : Real.log (1 - k ^ a) < 0 := Real.log_neg hq1 (by linarith)
  -- `u exp(-u) < 1 - exp(-u)` for `u = -a log k`
  have h1 : -(a * Real.log k) * k ^ a < 1 - k ^ a := by
    have h2 := Real.add_one_lt_exp (show -(a * Real.log k) ≠ 0 by nlinarith)
    have e : Real.exp (-(a * Real.log k)) * k ^ a = 1 := by
      rw [Real.rpow_def_of_pos hk.1, ← Real.exp_add, show -(a * Real.log k) + Real.log k * a = 0 by ring, Real.exp_zero]
    have h3 := mul_lt_mul_of_pos_right h2 hq
    rw [e] at h3
    linarith
  -- `1 + q/log(1 - q) ≤ q`
  have h2 : 1 + k ^ a / Real.log (1 - k ^ a) ≤ k ^ a := by
    have h3 := Real.one_sub_inv_le_log_of_pos hq1
    have h4 : -Real.log (1 - k ^ a) * (1 - k ^ a) ≤ k ^ a := by
      have h5 := mul_le_mul_of_nonneg_right h3 hq1.le
      rw [sub_mul, inv_mul_cancel₀ hq1.ne'] at h5
      linarith
    have h6 : k ^ a / Real.log (1 - k ^ a) ≤ -(1 - k ^ a) := by
      rw [div_le_iff_of_neg hL]; linarith
    linarith
  rw [e1, e2, e3]
  have e4 : 1 / a + Real.log k + (1 - -1 / Real.log (1 - k ^ a)) * (k ^ a * Real.log k / (1 - k ^ a)) =
      (1 - k ^ a - -(a * Real.log k) * (1 + k ^ a / Real.log (1 - k ^ a))) / (a * (1 - k ^ a)) := by
    have := hL.ne
    field_simp
    ring
  rw [e4]
  refine div_pos ?_ (by positivity)
  have := mul_le_mul_of_nonneg_left h2 (show 0 ≤ -(a * Real.log k) by nlinarith)
  linarith

/-- C31 violated: for constant data the equation that `mle` solves has no positive root, so with a root finder that returns
only roots, `mle` never returns a positive `a`. -/
theorem mle_constant (hf : SoundFinder findroot) (hp : ∀ v, p ≠ .fixed v) (hn : xs ≠ []) {k : ℝ} (hk : k ∈ Set.Ioo (0:ℝ) 1)
    (hc : ∀ x ∈ xs, x = k) (ha : 0 < a) (b' : Num) : mle findroot (xs.map fin) p none ≠ .ok (fin a, b') := by
  intro h
  have hx : ∀ x ∈ xs, x ∈ Set.Ioo (0:ℝ) 1 := fun x hm => by rw [hc x hm]; exact hk
  obtain ⟨e1, e2⟩ := sumlog_eval hn hx
  have h1 : ∃ r, findroot (fun t => mleAEqn t (xs.map fin) (fin (xs.length * sampleMean (xs.map Real.log)))) p.start = .ok r ∧
      (do return (r, ← -stats.len (xs.map fin) /. (← mleS2 r (xs.map fin))) : M (Num × Num)) = .ok (fin a, b') := by
    cases p with
    | fixed v => exact absurd rfl (hp v)
    | none | initial v =>
      simp only [mle, zero_def, bounds hx, ok_bind, one_def, e1, e2] at h
      obtain ⟨r, h1, h2⟩ := ok_of_bind h
      exact ⟨r, h1, h2⟩
  obtain ⟨r, hr, h2⟩ := h1
  obtain ⟨s2, h4, h5⟩ := ok_of_bind h2
  obtain ⟨q, h6, h7⟩ := ok_of_bind h5
  obtain ⟨rfl, rfl⟩ := Prod.mk.inj (Except.ok.inj h7)
  have h0 := hf _ _ _ hr
  rw [aEqn_eval hn ha hx, zero_def] at h0
  have h0 := (mul_eq_zero.1 (fin.inj (Except.ok.inj h0))).resolve_left (length_pos hn).ne'
  have := profile_constant hn hk hc ha
  linarith

/-- The profile equation for small `a`. -/
theorem profile_small (hn : xs ≠ []) (hx : ∀ x ∈ xs, x ∈ Set.Ioo (0:ℝ) 1) :
    ∃ a, 0 < a ∧ 0 < 1 / a + sampleMean (xs.map Real.log) + (1 - -1 / B xs a) * S xs a := by
  set m := sampleMean (xs.map Real.log) with hm
  set C := sampleMean (xs.map fun x => -Real.log (-Real.log x)) with hC
  have hlim : Filter.Tendsto (fun a : ℝ => 1 + a * m + m * (-(Real.log a * a) + a * C - a * (a * m))) (nhdsWithin 0 (Set.Ioi 0)) (nhds 1) := by
    have h1 : Filter.Tendsto (fun a : ℝ => a) (nhdsWithin 0 (Set.Ioi 0)) (nhds 0) := tendsto_nhdsWithin_of_tendsto_nhds Filter.tendsto_id
    have h2 : Filter.Tendsto (fun a : ℝ => Real.log a * a) (nhdsWithin 0 (Set.Ioi 0)) (nhds 0) := by
      simpa only [Real.rpow_one] using tendsto_log_mul_rpow_nhdsGT_zero zero_lt_one
    have h3 := ((h1.mul_const m).const_add 1).add (((h2.neg.add (h1.mul_const C)).sub (h1.mul (h1.mul_const m))).const_mul m)
    simpa using h3
  have hev := (hlim.eventually (lt_mem_nhds zero_lt_one)).and (self_mem_nhdsWithin)
  obtain ⟨a, h1, ha⟩ := hev.exists
  have ha : 0 < a := ha
  have hw : ∀ x ∈ xs, Real.log x < 0 := fun x h => Real.log_neg (hx x h).1 (hx x h).2
  have hB := B_neg hn ha hx
  have hexp : ∀ x ∈ xs, x ^ a = Real.exp (a * Real.log x) := fun x h => by rw [Real.rpow_def_of_pos (hx x h).1, mul_comm]
  have hm0 : m ≤ 0 := by
    have : m ≤ sampleMean (xs.map fun _ => (0:ℝ)) := sampleMean_le fun x h => (hw x h).le
    rwa [sampleMean_const hn] at this
  -- `1/a + m + S ≥ m`
  have h2 : -(1 / a) ≤ S xs a := by
    have h3 : sampleMean (xs.map fun _ => -(1 / a)) ≤ S xs a := sampleMean_le fun x h => by
      have h4 := rpow_lt ha (hx x h).1.le (hx x h).2
      have hq := Real.rpow_pos_of_pos (hx x h).1 a
      have h5 : Real.log (1 / x ^ a) ≤ 1 / x ^ a - 1 := Real.log_le_sub_one_of_pos (by positivity)
      rw [one_div, Real.log_inv, Real.log_rpow (hx x h).1] at h5
      have h6 := mul_le_mul_of_nonneg_right h5 hq.le
      rw [sub_mul, inv_mul_cancel₀ hq.ne'] at h6
      rw [le_div_iff₀ h4, ← sub_nonneg]
      have e : x ^ a * Real.log x - -(1 / a) * (1 - x ^ a) = (1 - x ^ a - -(a * Real.log x) * x ^ a) / a := by field_simp; ring
      rw [e]
      exact div_nonneg (by linarith) ha.le
    rwa [sampleMean_const hn] at h3
  -- `S ≤ -1/a - m`
  have h3 : S xs a ≤ -(1 / a) + -1 * m := by
    rw [hm, ← sampleMean_affine hn]
    refine sampleMean_le fun x h => ?_
    have h4 := rpow_lt ha (hx x h).1.le (hx x h).2
    have hq := Real.rpow_pos_of_pos (hx x h).1 a
    have h5 : a * Real.log x + 1 ≤ x ^ a := by rw [hexp x h]; exact Real.add_one_le_exp _
    rw [div_le_iff₀ h4, ← sub_nonneg]
    have e : (-(1 / a) + -1 * Real.log x) * (1 - x ^ a) - x ^ a * Real.log x = (x ^ a - (a * Real.log x + 1)) / a := by field_simp; ring
    rw [e]
    exact div_nonneg (by linarith) ha.le
  -- `-B ≤ -log a + C - a m`
  have h4 : -B xs a ≤ -Real.log a + C - a * m := by
    have h5 : sampleMean (xs.map fun x => -1 * Real.log (1 - x ^ a)) ≤
        sampleMean (xs.map fun x => -Real.log a + 1 * (-Real.log (-Real.log x) + -a * Real.log x)) := sampleMean_le fun x h => by
      have h6 := rpow_lt ha (hx x h).1.le (hx x h).2
      have h7 : a * -Real.log x * x ^ a ≤ 1 - x ^ a := by
        have hq := Real.rpow_pos_of_pos (hx x h).1 a
        have h5 : Real.log (1 / x ^ a) ≤ 1 / x ^ a - 1 := Real.log_le_sub_one_of_pos (by positivity)
        rw [one_div, Real.log_inv, Real.log_rpow (hx x h).1] at h5
        have h6 := mul_le_mul_of_nonneg_right h5 hq.le
        rw [sub_mul, inv_mul_cancel₀ hq.ne'] at h6
        linarith
      have hw' : 0 < -Real.log x := by have := hw x h; linarith
      have hq := Real.rpow_pos_of_pos (hx x h).1 a
      have h8 := Real.log_le_log (by positivity) h7
      rw [Real.log_mul (by positivity) hq.ne', Real.log_mul ha.ne' hw'.ne', Real.log_rpow (hx x h).1] at h8
      linarith
    rw [sampleMean_mul, sampleMean_affine hn, sampleMean_add, sampleMean_mul,
      show sampleMean (xs.map fun x => Real.log (1 - x ^ a)) = B xs a from rfl,
      show sampleMean (xs.map fun x => Real.log x) = m from rfl] at h5
    linarith
  have e : 1 / a + m + (1 - -1 / B xs a) * S xs a = (1 / a + m + S xs a) + S xs a / B xs a := by
    have := hB.ne
    field_simp
    ring
  refine ⟨a, ha, ?_⟩
  rw [e]
  have h5 : -m < S xs a / B xs a := by
    rw [lt_div_iff_of_neg hB]
    -- `S < m (-B)`
    have h6 : -(1 / a) - m < m * (-Real.log a + C - a * m) := by
      have e2 : m * (-Real.log a + C - a * m) - (-(1 / a) - m) = (1 + a * m + m * (-(Real.log a * a) + a * C - a * (a * m))) / a := by
        field_simp
        ring
      have : 0 < (1 + a * m + m * (-(Real.log a * a) + a * C - a * (a * m))) / a := div_pos h1 ha
      linarith
    have h7 := mul_le_mul_of_nonpos_left h4 hm0
    linarith
  linarith

/-- The profile equation for large `a`, for data that are not all equal. -/
theorem profile_large (hx : ∀ x ∈ xs, x ∈ Set.Ioo (0:ℝ) 1) (hv : ¬ ∃ k, ∀ x ∈ xs, x = k) (a₀ : ℝ) :
    ∃ a, 0 < a ∧ a₀ ≤ a ∧ 1 / a + sampleMean (xs.map Real.log) + (1 - -1 / B xs a) * S xs a < 0 := by
  have hn : xs ≠ [] := by rintro rfl; exact hv ⟨0, by simp⟩
  obtain ⟨y, hy, hmax⟩ : ∃ y ∈ xs, ∀ x ∈ xs, x ≤ y := by
    obtain ⟨y, h2, h3, -⟩ := py.max_fin hn
    exact ⟨y, h2, h3⟩
  have hw : ∀ x ∈ xs, Real.log x < 0 := fun x h => Real.log_neg (hx x h).1 (hx x h).2
  have hle : ∀ x ∈ xs, Real.log x ≤ Real.log y := fun x h => Real.log_le_log (hx x h).1 (hmax x h)
  set m := sampleMean (xs.map Real.log) with hm
  set M := Real.log y with hM
  have hM0 : M < 0 := hw y hy
  have hgap : m < M := by
    have h1 : 0 < sampleMean (xs.map fun x => M + -1 * Real.log x) := by
      refine sampleMean_pos (fun x h => by have := hle x h; linarith) ?_
      by_contra hno
      push Not at hno
      refine hv ⟨y, fun x h => ?_⟩
      have h2 : Real.log x = Real.log y := le_antisymm (hle x h) (by have := hno x h; linarith)
      exact Real.log_injOn_pos (hx x h).1 (hx y hy).1 h2
    rw [sampleMean_affine hn] at h1
    linarith
  have hκ : 0 < sampleMean (xs.map fun x => if x = y then (1 : ℝ) else 0) := sampleMean_pos
    (fun x _ => by split_ifs <;> norm_num) ⟨y, hy, by simp⟩
  set κ := sampleMean (xs.map fun x => if x = y then (1 : ℝ) else 0) with hκd
  have hlim : Filter.Tendsto (fun a : ℝ => a⁻¹ + m + (-M + κ⁻¹ * a⁻¹) * (1 - Real.exp (a * M))⁻¹) Filter.atTop (nhds (m - M)) := by
    have h1 : Filter.Tendsto (fun a : ℝ => a⁻¹) Filter.atTop (nhds 0) := tendsto_inv_atTop_zero
    have h2 : Filter.Tendsto (fun a : ℝ => Real.exp (a * M)) Filter.atTop (nhds 0) :=
      Real.tendsto_exp_atBot.comp (Filter.tendsto_id.atTop_mul_const_of_neg hM0)
    have h3 : Filter.Tendsto (fun a : ℝ => (1 - Real.exp (a * M))⁻¹) Filter.atTop (nhds (1 - 0)⁻¹) := (h2.const_sub 1).inv₀ (by norm_num)
    have h4 := (h1.add_const m).add (((h1.const_mul κ⁻¹).const_add (-M)).mul h3)
    simp only [zero_add, mul_zero, add_zero, sub_zero, inv_one, mul_one] at h4
    rwa [← sub_eq_add_neg] at h4
  have hev := ((hlim.eventually (gt_mem_nhds (show m - M < 0 by linarith))).and (Filter.eventually_gt_atTop 0)).and (Filter.eventually_ge_atTop a₀)
  obtain ⟨a, ⟨h1, ha⟩, ha₀⟩ := hev.exists
  refine ⟨a, ha, ha₀, lt_of_le_of_lt ?_ h1⟩
  have hB := B_neg hn ha hx
  have hexp : ∀ x ∈ xs, x ^ a = Real.exp (a * Real.log x) := fun x h => by rw [Real.rpow_def_of_pos (hx x h).1, mul_comm]
  have hqM : ∀ x ∈ xs, x ^ a ≤ Real.exp (a * M) := fun x h => by
    rw [hexp x h]; exact Real.exp_le_exp.2 (mul_le_mul_of_nonneg_left (hle x h) ha.le)
  have hq1 : 0 < 1 - Real.exp (a * M) := by have := Real.exp_lt_one_iff.2 (show a * M < 0 by nlinarith); linarith
  have hEM := Real.exp_pos (a * M)
  set Q := sampleMean (xs.map fun x => x ^ a) with hQ
  have h2 : Q ≤ -B xs a := by
    have h3 : Q ≤ sampleMean (xs.map fun x => -1 * Real.log (1 - x ^ a)) := sampleMean_le fun x h => by
      have := Real.log_le_sub_one_of_pos (rpow_lt ha (hx x h).1.le (hx x h).2)
      linarith
    rw [sampleMean_mul, show sampleMean (xs.map fun x => Real.log (1 - x ^ a)) = B xs a from rfl] at h3
    linarith
  have h3 : κ * Real.exp (a * M) ≤ Q := by
    rw [mul_comm, hκd, ← sampleMean_mul]
    refine sampleMean_le fun x h => ?_
    split_ifs with hxy
    · subst hxy; rw [hexp x h, mul_one]
    · rw [mul_zero]; exact (Real.rpow_pos_of_pos (hx x h).1 a).le
  have h4 : (-S xs a) * (1 - Real.exp (a * M)) ≤ -M * Q + Real.exp (a * M) * a⁻¹ := by
    have h5 : sampleMean (xs.map fun x => -(1 - Real.exp (a * M)) * (x ^ a * Real.log x / (1 - x ^ a))) ≤
        sampleMean (xs.map fun x => Real.exp (a * M) * a⁻¹ + -M * x ^ a) := sampleMean_le fun x h => by
      have h6 := rpow_lt ha (hx x h).1.le (hx x h).2
      have hq := Real.rpow_pos_of_pos (hx x h).1 a
      have h7 : -(1 - Real.exp (a * M)) * (x ^ a * Real.log x / (1 - x ^ a)) ≤ -(x ^ a * Real.log x) := by
        have e : -(1 - Real.exp (a * M)) * (x ^ a * Real.log x / (1 - x ^ a)) = -(x ^ a * Real.log x) * ((1 - Real.exp (a * M)) / (1 - x ^ a)) := by
          field_simp
        rw [e]
        refine mul_le_of_le_one_right ?_ ?_
        · have := mul_pos hq (neg_pos.2 (hw x h)); linarith
        · rw [div_le_one h6]; have := hqM x h; linarith
      have h8 : (M - Real.log x) * x ^ a ≤ Real.exp (a * M) * a⁻¹ := by
        have h9 := Real.add_one_le_exp (a * (M - Real.log x))
        have e : x ^ a = Real.exp (a * M) / Real.exp (a * (M - Real.log x)) := by
          rw [hexp x h, ← Real.exp_sub]; congr 1; ring
        rw [e, mul_div_assoc', div_le_iff₀ (Real.exp_pos _), mul_comm (M - Real.log x), mul_assoc]
        refine mul_le_mul_of_nonneg_left ?_ hEM.le
        rw [inv_mul_eq_div, le_div_iff₀ ha]
        linarith
      linarith
    rw [sampleMean_mul, sampleMean_affine hn, show sampleMean (xs.map fun x => x ^ a * Real.log x / (1 - x ^ a)) = S xs a from rfl] at h5
    linarith
  have hQ0 : 0 < Q := lt_of_lt_of_le (by positivity) h3
  have hS : S xs a ≤ 0 := by
    have : S xs a ≤ sampleMean (xs.map fun _ => (0:ℝ)) := sampleMean_le fun x h => by
      have h6 := rpow_lt ha (hx x h).1.le (hx x h).2
      have hq := Real.rpow_pos_of_pos (hx x h).1 a
      exact div_nonpos_of_nonpos_of_nonneg (mul_nonpos_of_nonneg_of_nonpos hq.le (hw x h).le) h6.le
    rwa [sampleMean_const hn] at this
  have h5 : S xs a / B xs a ≤ (-M + κ⁻¹ * a⁻¹) * (1 - Real.exp (a * M))⁻¹ := by
    have e : S xs a / B xs a = -S xs a / -B xs a := by rw [neg_div_neg_eq]
    rw [e, ← div_eq_mul_inv, div_le_div_iff₀ (by linarith) hq1]
    have h6 : Real.exp (a * M) ≤ κ⁻¹ * Q := by rw [inv_mul_eq_div, le_div_iff₀ hκ]; linarith
    have h7 := mul_le_mul_of_nonneg_right h6 (inv_pos.2 ha).le
    have h8 : (-M + κ⁻¹ * a⁻¹) * Q ≤ (-M + κ⁻¹ * a⁻¹) * -B xs a := by
      refine mul_le_mul_of_nonneg_left h2 ?_
      have : 0 < κ⁻¹ * a⁻¹ := by positivity
      linarith
    linarith
  have e : 1 / a + m + (1 - -1 / B xs a) * S xs a = (a⁻¹ + m + S xs a) + S xs a / B xs a := by
    have := hB.ne
    field_simp
    ring
  rw [e]
  linarith

/-- C31: for data that are not all equal the likelihood has a maximum, at a zero of the equation that `mle` solves. -/
theorem mle_exists (hx : ∀ x ∈ xs, x ∈ Set.Ioo (0:ℝ) 1) (hv : ¬ ∃ k, ∀ x ∈ xs, x = k) :
    ∃ a b : ℝ, mleAEqn (fin a) (xs.map fin) (mp.fsum ((xs.map Real.log).map fin)) = .ok 0 ∧
      IsMle (fun θ : ℝ × ℝ => 0 < θ.1 ∧ 0 < θ.2) (fun θ => nll (xs.map fin) (fin θ.1) (fin θ.2)) (a, b) := by
  have hn : xs ≠ [] := by rintro rfl; exact hv ⟨0, by simp⟩
  obtain ⟨u, hu, h1⟩ := profile_small hn hx
  obtain ⟨v, hv0, huv, h2⟩ := profile_large hx hv u
  have hc : ContinuousOn (fun a => 1 / a + sampleMean (xs.map Real.log) + (1 - -1 / B xs a) * S xs a) (Set.Icc u v) := fun a hm => by
    have ha : 0 < a := hu.trans_le hm.1
    have hB := (B_neg hn ha hx).ne
    exact (((continuousAt_const.div continuousAt_id ha.ne').add continuousAt_const).add
      ((continuousAt_const.sub (continuousAt_const.div (hasDerivAt_B ha hx).continuousAt hB)).mul
        (hasDerivAt_S ha hx).continuousAt)).continuousWithinAt
  obtain ⟨a, hm, h3⟩ := intermediate_value_Icc' huv hc ⟨h2.le, h1.le⟩
  have ha : 0 < a := hu.trans_le hm.1
  beta_reduce at h3
  refine ⟨a, -1 / B xs a, ?_, isMle_ab hn hx ha h3⟩
  rw [(sumlog_eval hn hx).2, aEqn_eval hn ha hx, h3, mul_zero, zero_def]

/-- Non-vacuity: the data 1/4, 1/2. -/
example : (∀ x ∈ [(1/4:ℝ), 1/2], x ∈ Set.Ioo (0:ℝ) 1) ∧ ¬ ∃ k, ∀ x ∈ [(1/4:ℝ), 1/2], x = k := by
  refine ⟨by norm_num, ?_⟩
  rintro ⟨k, h⟩
  have h1 := h (1/4) (by simp)
  have h2 := h (1/2) (by simp)
  linarith

/-- C31: data outside (0, 1) are rejected, and when both parameters are fixed they are validated and returned. -/
theorem mle_errors (xs : List ℝ) : ((∃ x ∈ xs, x ∉ Set.Ioo (0:ℝ) 1) → ∀ p q, mle findroot (xs.map fin) p q = .error .valueError) ∧
    (xs ≠ [] → (∀ x ∈ xs, x ∈ Set.Ioo (0:ℝ) 1) → mle findroot (xs.map fin) (.fixed (fin a)) (some (fin b)) =
      if 0 < a ∧ 0 < b then .ok (fin a, fin b) else .error .valueError) := by
  refine ⟨fun h p q => ?_, fun hn hx => ?_⟩
  · simp only [mle, zero_def, one_def, bounds_bad h]; rfl
  · obtain ⟨e1, e2⟩ := sumlog_eval hn hx
    simp only [mle, zero_def, one_def, bounds hx, ok_bind, e1]
    by_cases h : 0 < a ∧ 0 < b
    · rw [if_pos h, validate_ok h.1 h.2]
    · rw [if_neg h, validate_bad h]

/-- Non-vacuity: for the observation 1/e and `b = 1` the equation for `a` has the root 1. -/
example : (∀ x ∈ [Real.exp (-1)], x ∈ Set.Ioo (0:ℝ) 1) ∧
    mleAEqnBFixed (fin 1) (fin 1) ([Real.exp (-1)].map fin) (fin (-1)) = .ok 0 := by
  have hx : ∀ x ∈ [Real.exp (-1)], x ∈ Set.Ioo (0:ℝ) 1 := by
    simp only [List.mem_singleton, forall_eq, Set.mem_Ioo]
    exact ⟨Real.exp_pos _, Real.exp_lt_one_iff.2 (by norm_num)⟩
  refine ⟨hx, ?_⟩
  have h := aEqnBFixed_eval (xs := [Real.exp (-1)]) (a := 1) (b := 1) (by simp) one_pos hx
  simp only [sampleMean, List.map_cons, List.map_nil, List.sum_cons, List.sum_nil, List.length_cons, List.length_nil, Real.log_exp] at h
  norm_num at h
  exact h

end Mpsci.kumaraswamy
