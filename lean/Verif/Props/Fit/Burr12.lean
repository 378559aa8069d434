import Verif.Lemmas.Fit.Burr12

/-! `burr12.nll` and `burr12.mle`. -/

namespace Mpsci.burr12

open Classical Num Spec common

variable {c d s ε : ℝ} {xs : List ℝ} {findroot : (Num → M Num) → Num → M Num} {findrootB : (Num → M Num) → Num → Num → M Num}
  {findroot2 : (Num → Num → M (Num × Num)) → Num × Num → M (Num × Num)}
  {findroot3 : (Num → Num → Num → M (Num × Num × Num)) → Num × Num × Num → M (Num × Num × Num)}
  {eps : Num} {fuel : ℕ} {pc pd ps : Param}

/-- C30 -/
theorem nll_spec (hc : 0 < c) (hd : 0 < d) (hs : 0 < s) :
    NllIsNegSum {x | 0 < x} (logpdf · (fin c) (fin d) (fin s)) (nll · (fin c) (fin d) (fin s)) :=
  nll_of_fsum (l := l c d s) (fun _ hx => logpdf_l hc hd hs hx) fun _ hx => nll_unfold hc hd hs hx

/-- C30: data that are not positive are rejected. -/
theorem nll_rejects (hc : 0 < c) (hd : 0 < d) (hs : 0 < s) : NllRejects {x | 0 < x} (nll · (fin c) (fin d) (fin s)) := by
  intro xs h
  simp only [nll, validate_ok hc hd hs, ok_bind, zero_def, bounds_bad h]
  rfl

/-- C30 -/
theorem nll_invalid (h : ¬ (0 < c ∧ 0 < d ∧ 0 < s)) (xs : List Num) : nll xs (fin c) (fin d) (fin s) = .error .valueError := by
  simp only [nll, validate_bad h]; rfl

theorem isMle_d (hn : xs ≠ []) (hx : ∀ x ∈ xs, 0 < x) (hc : 0 < c) (hs : 0 < s) :
    IsMle (fun d : ℝ => 0 < d) (fun d => nll (xs.map fin) (fin c) (fin d) (fin s)) (1 / H xs c s) :=
  isMle_of (one_div_pos.2 (H_pos hn hs hx)) (fun _ hd => nll_eval hn hc hd hs hx) fun _ hd =>
    mul_le_mul_of_nonneg_left (d_min (H_pos hn hs hx) hd) (by positivity)

theorem isMle_s (hn : xs ≠ []) (hx : ∀ x ∈ xs, 0 < x) (hc : 0 < c) (hd : 0 < d) (hs : 0 < s) (h : E3 xs c d s = 0) :
    IsMle (fun s : ℝ => 0 < s) (fun s => nll (xs.map fin) (fin c) (fin d) (fin s)) s :=
  isMle_of hs (fun _ hs => nll_eval hn hc hd hs hx) fun t ht =>
    mul_le_mul_of_nonneg_left (by have := N_convex hn hx hc hd hs hc ht; rw [h] at this; linarith) (by positivity)

theorem isMle_c (hn : xs ≠ []) (hx : ∀ x ∈ xs, 0 < x) (hc : 0 < c) (hd : 0 < d) (hs : 0 < s) (h : E1 xs c d s = 0) :
    IsMle (fun c : ℝ => 0 < c) (fun c => nll (xs.map fin) (fin c) (fin d) (fin s)) c :=
  isMle_of hc (fun _ hc => nll_eval hn hc hd hs hx) fun t ht =>
    mul_le_mul_of_nonneg_left (by have := N_convex hn hx hc hd hs ht hs; rw [h, sub_self] at this; linarith) (by positivity)

theorem isMle_cs (hn : xs ≠ []) (hx : ∀ x ∈ xs, 0 < x) (hc : 0 < c) (hd : 0 < d) (hs : 0 < s) (h1 : E1 xs c d s = 0) (h3 : E3 xs c d s = 0) :
    IsMle (fun θ : ℝ × ℝ => 0 < θ.1 ∧ 0 < θ.2) (fun θ => nll (xs.map fin) (fin θ.1) (fin d) (fin θ.2)) (c, s) :=
  isMle_of ⟨hc, hs⟩ (fun _ h => nll_eval hn h.1 hd h.2 hx) fun θ h =>
    mul_le_mul_of_nonneg_left (by have := N_convex hn hx hc hd hs h.1 h.2; rw [h1, h3] at this; linarith) (by positivity)

/-- C31: with `c` and the scale fixed, the estimate of `d` maximises the likelihood. -/
theorem mle_fixedCScale (hn : xs ≠ []) (hx : ∀ x ∈ xs, 0 < x) (hc : 0 < c) (hs : 0 < s) (hp : pd = .none ∨ ∃ v, 0 < v ∧ pd = .initial (fin v)) :
    ∃ d : ℝ, mle findroot findrootB findroot2 findroot3 eps fuel (xs.map fin) (.fixed (fin c)) pd (.fixed (fin s)) =
      .ok (fin c, fin d, fin s) ∧
    IsMle (fun d : ℝ => 0 < d) (fun d => nll (xs.map fin) (fin c) (fin d) (fin s)) d := by
  refine ⟨_, ?_, isMle_d hn hx hc hs⟩
  rcases hp with rfl | ⟨v, hv, rfl⟩
  · simp only [mle, zero_def, bounds hx, ok_bind, Param.start, one_def, validate_ok hc one_pos hs, dFor_eval hn hs hx, pure_eq_ok]
  · simp only [mle, zero_def, bounds hx, ok_bind, Param.start, validate_ok hc hv hs, dFor_eval hn hs hx, pure_eq_ok]

/-- C31: with `c` and `d` fixed, the loop that looks for a bracket of the scale ends, and with a root finder that finds the
zero in the bracket, the estimate maximises the likelihood.  (The code asks for such a solver, 'anderson', but with a
wrong keyword.)  `ε` is the working precision; the data must not be as small as `ε` (see `scaleBracket_zero`). -/
theorem mle_fixedCD (hf : RootFinder findrootB) (hn : xs ≠ []) (hx : ∀ x ∈ xs, 0 < x) (hc : 0 < c) (hd : 0 < d)
    (hp : ps = .none ∨ ∃ v, 0 < v ∧ ps = .initial (fin v)) (hε : 0 < ε) (hsmall : ∀ x ∈ xs, 1 < d * (x / ε) ^ c) :
    ∃ (s : ℝ) (K : ℕ), (∀ fuel ≥ K, mle findroot findrootB findroot2 findroot3 (fin ε) fuel (xs.map fin) (.fixed (fin c))
      (.fixed (fin d)) ps = .ok (fin c, fin d, fin s)) ∧
    IsMle (fun s : ℝ => 0 < s) (fun s => nll (xs.map fin) (fin c) (fin d) (fin s)) s := by
  have h1 : E3 xs c d ε < 0 := by
    have h2 : 0 < sampleMean (xs.map fun x => -1 + (d + 1) * r c ε x) := by
      have h3 : ∀ x ∈ xs, 0 < -1 + (d + 1) * r c ε x := fun x hm => by
        have h4 : 1 < d * q c ε x := hsmall x hm
        have h5 := qx_pos (c := c) hε (hx x hm)
        have : 1 < (d + 1) * r c ε x := by
          rw [r, mul_div_assoc', lt_div_iff₀ (by positivity)]; linarith
        linarith
      obtain ⟨y, hy⟩ := List.exists_mem_of_ne_nil _ hn
      exact sampleMean_pos (fun x hm => (h3 x hm).le) ⟨y, hy, h3 y hy⟩
    rw [sampleMean_affine hn, show sampleMean (xs.map fun x => r c ε x) = R xs c ε from rfl] at h2
    rw [E3]; linarith
  obtain ⟨lo, hi, K, h2, h3, h4, h5, h6⟩ := bracket_finds (func := fun s => scaleEqCD s (xs.map fin) (fin c) (fin d)) (test := (· < 0))
    (g := fun s => E3 xs c d s) (σ := 1) hε (fun t ht => scaleEqCD_eval hn ht hx) (fun v => by simp) (by simpa using h1)
    (by simpa using E3_large hc hd hn hx)
  rw [one_mul] at h4 h5
  obtain ⟨s, hs, h7, h8⟩ := hf (fun s => scaleEqCD s (xs.map fin) (fin c) (fin d)) (fun s => E3 xs c d s) lo hi h3
    (fun x hm => scaleEqCD_eval hn (h2.trans_le hm.1) hx) ((continuousOn_E3 hn hx).mono fun x hm => h2.trans_le hm.1) (Or.inl ⟨h4.le, h5⟩)
  refine ⟨s, K, fun fuel hK => ?_, isMle_s hn hx hc hd (h2.trans_le hs.1) h8⟩
  have h9 : findScaleBracket (fin ε) fuel (xs.map fin) (fin c) (fin d) = .ok (fin lo, fin hi) := h6 fuel hK
  rcases hp with rfl | ⟨v, hv, rfl⟩
  · simp only [mle, zero_def, bounds hx, ok_bind, Param.start, one_def, validate_ok hc hd one_pos, h9, h7, pure_eq_ok]
  · simp only [mle, zero_def, bounds hx, ok_bind, Param.start, validate_ok hc hd hv, h9, h7, pure_eq_ok]

/-- For small `c` the equation is positive. -/
theorem E1_small (hn : xs ≠ []) (hx : ∀ x ∈ xs, 0 < x) (hd : 0 < d) (hs : 0 < s) (hε : 0 < ε)
    (hsmall : ∀ x ∈ xs, ε * ((d + 1) * |Real.log (x / s)|) < 1) : 0 < E1 xs ε d s := by
  have h2 : 0 < sampleMean (xs.map fun x => 1 / ε + 1 * (Real.log (x / s) + -(d + 1) * (r ε s x * Real.log (x / s)))) := by
    have h3 : ∀ x ∈ xs, 0 < 1 / ε + 1 * (Real.log (x / s) + -(d + 1) * (r ε s x * Real.log (x / s))) := fun x hm => by
      have h4 := hsmall x hm
      obtain ⟨h5, h6⟩ := r_mem (c := ε) hs (hx x hm)
      have h7 : (d + 1) * |Real.log (x / s)| < 1 / ε := by rw [lt_div_iff₀ hε]; linarith
      set w := Real.log (x / s)
      rcases le_total 0 w with hw | hw
      · rw [abs_of_nonneg hw] at h7
        have := mul_le_mul_of_nonneg_right h6.le hw
        have := mul_le_mul_of_nonneg_left this (show 0 ≤ d + 1 by linarith)
        linarith
      · rw [abs_of_nonpos hw] at h7
        have h8 : r ε s x * w ≤ 0 := mul_nonpos_of_nonneg_of_nonpos h5.le hw
        have h9 : (d + 1) * (r ε s x * w) ≤ 0 := mul_nonpos_of_nonneg_of_nonpos (by linarith) h8
        have h10 : d * w ≤ 0 := mul_nonpos_of_nonneg_of_nonpos hd.le hw
        linarith
    obtain ⟨y, hy⟩ := List.exists_mem_of_ne_nil _ hn
    exact sampleMean_pos (fun x hm => (h3 x hm).le) ⟨y, hy, h3 y hy⟩
  rw [sampleMean_affine hn, sampleMean_add, sampleMean_mul, show sampleMean (xs.map fun x => r ε s x * Real.log (x / s)) = T xs ε s from rfl] at h2
  have : sampleMean (xs.map fun x => Real.log (x / s)) = -Real.log s + 1 * sampleMean (xs.map Real.log) := by
    rw [← sampleMean_affine hn]
    exact sampleMean_congr fun x hm => by rw [Real.log_div (hx x hm).ne' hs.ne']; ring
  rw [this] at h2
  rw [E1]; linarith

/-- C31: with `d` and the scale fixed, unless all data are equal to the scale, the loop that looks for a bracket of `c` ends,
and with a root finder that finds the zero in the bracket, the estimate maximises the likelihood. -/
theorem mle_fixedDScale (hf : RootFinder findrootB) (hx : ∀ x ∈ xs, 0 < x) (hd : 0 < d) (hs : 0 < s) (hne : ∃ x ∈ xs, x ≠ s)
    (hp : pc = .none ∨ ∃ v, 0 < v ∧ pc = .initial (fin v)) (hε : 0 < ε) (hsmall : ∀ x ∈ xs, ε * ((d + 1) * |Real.log (x / s)|) < 1) :
    ∃ (c : ℝ) (K : ℕ), (∀ fuel ≥ K, mle findroot findrootB findroot2 findroot3 (fin ε) fuel (xs.map fin) pc
      (.fixed (fin d)) (.fixed (fin s)) = .ok (fin c, fin d, fin s)) ∧
    IsMle (fun c : ℝ => 0 < c) (fun c => nll (xs.map fin) (fin c) (fin d) (fin s)) c := by
  have hn : xs ≠ [] := by obtain ⟨x, hx, -⟩ := hne; exact List.ne_nil_of_mem hx
  have hl := length_pos hn
  have h1 : 0 < E1 xs ε d s := E1_small hn hx hd hs hε hsmall
  obtain ⟨lo, hi, K, h2, h3, h4, h5, h6⟩ := bracket_finds (func := fun c => cEq c (xs.map fin) (fin d) (fin s)) (test := (0 < ·))
    (g := fun c => xs.length * E1 xs c d s) (σ := -1) hε (fun t ht => cEq_eval hn ht.ne' hs hx) (fun v => by simp)
    (by have := mul_pos hl h1; linarith)
    (by
      obtain ⟨C, hC⟩ := E1_large hd hs hx hne
      exact ⟨C, fun c hc => by have := mul_pos_of_neg_of_neg (neg_lt_zero.2 hl) (hC c hc); linarith⟩)
  obtain ⟨c, hc, h7, h8⟩ := hf (fun c => cEq c (xs.map fin) (fin d) (fin s)) (fun c => xs.length * E1 xs c d s) lo hi h3
    (fun x hm => cEq_eval hn (h2.trans_le hm.1).ne' hs hx) (continuousOn_const.mul ((continuousOn_E1 hs hx).mono fun x hm => h2.trans_le hm.1))
    (Or.inr ⟨by linarith, by linarith⟩)
  have h8 : E1 xs c d s = 0 := (mul_eq_zero.1 h8).resolve_left hl.ne'
  refine ⟨c, K, fun fuel hK => ?_, isMle_c hn hx (h2.trans_le hc.1) hd hs h8⟩
  have h9 : findCBracket (fin ε) fuel (xs.map fin) (fin d) (fin s) = .ok (fin lo, fin hi) := h6 fuel hK
  rcases hp with rfl | ⟨v, hv, rfl⟩
  · simp only [mle, zero_def, bounds hx, ok_bind, Param.start, one_def, validate_ok one_pos hd hs, h9, h7, pure_eq_ok]
  · simp only [mle, zero_def, bounds hx, ok_bind, Param.start, validate_ok hv hd hs, h9, h7, pure_eq_ok]

/-- C31: with `c` fixed, if the root finder returns a positive scale, each of `d` and the scale maximises the likelihood
when the other is held fixed.  Missing: that the secant method returns a root, and that this is the maximum over both. -/
theorem mle_fixedC_partial (hf : SoundFinder findroot) (hn : xs ≠ []) (hx : ∀ x ∈ xs, 0 < x) (hc : 0 < c) (hp : ∀ v, pd ≠ .fixed v)
    (hq : ∀ v, ps ≠ .fixed v) {c' d' : Num}
    (h : mle findroot findrootB findroot2 findroot3 eps fuel (xs.map fin) (.fixed (fin c)) pd ps = .ok (c', d', fin s)) (hs : 0 < s) :
    c' = fin c ∧ ∃ d : ℝ, d' = fin d ∧ IsMle (fun d : ℝ => 0 < d) (fun d => nll (xs.map fin) (fin c) (fin d) (fin s)) d ∧
      IsMle (fun s : ℝ => 0 < s) (fun s => nll (xs.map fin) (fin c) (fin d) (fin s)) s := by
  have h1 : ∃ r, mleDScale findroot (xs.map fin) (fin c) ps.start = .ok r ∧ (.ok (fin c, r.1, r.2) : M (Num × Num × Num)) = .ok (c', d', fin s) := by
    have h2 : mle findroot findrootB findroot2 findroot3 eps fuel (xs.map fin) (.fixed (fin c)) pd ps = (do
        let (c, _, scale0) ← validateParams (fin c) pd.start ps.start
        let (d, scale) ← mleDScale findroot (xs.map fin) c scale0
        return (c, d, scale)) := by
      cases pd with
      | fixed v => exact absurd rfl (hp v)
      | none | initial v =>
        cases ps with
        | fixed v => exact absurd rfl (hq v)
        | none | initial v => simp only [mle, zero_def, bounds hx, ok_bind]
    rw [h2] at h
    obtain ⟨t, h3, h4⟩ := ok_of_bind h
    rw [validate_inv h3] at h4
    obtain ⟨r, h5, h6⟩ := ok_of_bind h4
    exact ⟨r, h5, h6⟩
  obtain ⟨t, h2, h3⟩ := h1
  obtain ⟨rfl, h4⟩ := Prod.mk.inj (Except.ok.inj h3)
  obtain ⟨rfl, h5⟩ := Prod.mk.inj h4
  obtain ⟨v, h6, h7⟩ := ok_of_bind h2
  obtain ⟨zc, h8, h9⟩ := ok_of_bind h7
  obtain ⟨u, h10, h11⟩ := ok_of_bind h9
  obtain ⟨w, h12, h13⟩ := ok_of_bind h11
  rw [← Except.ok.inj h13] at h5 ⊢
  simp only at h5
  subst h5
  have h14 := hf _ _ _ h6
  rw [eqScale_eval hn hs hx, zero_def] at h14
  rw [mapM_q hs hx] at h8
  obtain rfl := Except.ok.inj h8
  rw [mapM_log1p hs hx] at h10
  obtain rfl := Except.ok.inj h10
  have hH := H_pos (c := c) hn hs hx
  have hl := (length_pos hn).ne'
  rw [mp.fsum_fin, len_fin, show (xs.map fun x => Real.log (1 + q c s x)).sum = xs.length * H xs c s from sum_eq_mean hn _,
    fin_div _ (mul_ne_zero hl hH.ne')] at h12
  have e : (xs.length : ℝ) / (xs.length * H xs c s) = 1 / H xs c s := by field_simp
  rw [e] at h12
  exact ⟨rfl, 1 / H xs c s, (Except.ok.inj h12).symm, isMle_d hn hx hc hs,
    isMle_s hn hx hc (one_div_pos.2 hH) hs (fin.inj (Except.ok.inj h14))⟩

/-- For `L = log(1 + exp u)` and `r = exp u/(1 + exp u)`, `r² u² ≤ r (1 - r) u² L + L²`. -/
theorem softplus_ineq (u : ℝ) : (Real.exp u / (1 + Real.exp u)) ^ 2 * u ^ 2 ≤
    Real.exp u / (1 + Real.exp u) ^ 2 * u ^ 2 * Real.log (1 + Real.exp u) + Real.log (1 + Real.exp u) ^ 2 := by
  have hq := Real.exp_pos u
  set q := Real.exp u with hqd
  set L := Real.log (1 + q) with hL
  have hL0 : 0 < L := Real.log_pos (by linarith)
  rcases le_or_gt 0 u with hu | hu
  · have h1 : u ≤ L := by
      rw [hL, Real.le_log_iff_exp_le (by linarith)]; linarith
    have h2 : q / (1 + q) ≤ 1 := by rw [div_le_one (by linarith)]; linarith
    have h3 : (q / (1 + q)) ^ 2 ≤ 1 := pow_le_one₀ (by positivity) h2
    have h4 : u ^ 2 ≤ L ^ 2 := pow_le_pow_left₀ hu h1 2
    have h5 : 0 ≤ q / (1 + q) ^ 2 * u ^ 2 * L := by positivity
    nlinarith [sq_nonneg u]
  · -- `q - L ≤ q²/2` and `q ≤ (1 + q) L`
    have h1 : q ≤ (1 + q) * L := by
      have h2 := Real.one_sub_inv_le_log_of_pos (show 0 < 1 + q by linarith)
      have h3 := mul_le_mul_of_nonneg_left h2 (show 0 ≤ 1 + q by linarith)
      rw [mul_sub, mul_one, mul_inv_cancel₀ (by linarith)] at h3
      linarith
    have h2 : q - L ≤ q ^ 2 / 2 := by
      have h3 : 2 * q / (q + 2) ≤ L := Real.le_log_one_add_of_nonneg hq.le
      have h4 : q - q ^ 2 / 2 ≤ 2 * q / (q + 2) := by
        rw [le_div_iff₀ (by linarith)]
        nlinarith [pow_pos hq 3]
      linarith
    have h3 : u ^ 2 * q ≤ 2 := by
      have h4 := Real.quadratic_le_exp_of_nonneg (show 0 ≤ -u by linarith)
      have h5 : u ^ 2 ≤ 2 * Real.exp (-u) := by nlinarith
      have h6 := mul_le_mul_of_nonneg_right h5 hq.le
      rw [mul_assoc, hqd, ← Real.exp_add, neg_add_cancel, Real.exp_zero] at h6
      linarith
    have h4 : u ^ 2 * q * (q - L) ≤ ((1 + q) * L) ^ 2 := by
      have h5 : u ^ 2 * q * (q - L) ≤ u ^ 2 * q * (q ^ 2 / 2) := mul_le_mul_of_nonneg_left h2 (by positivity)
      have h6 : u ^ 2 * q * (q ^ 2 / 2) ≤ 2 * (q ^ 2 / 2) := mul_le_mul_of_nonneg_right h3 (by positivity)
      have h7 : q ^ 2 ≤ ((1 + q) * L) ^ 2 := pow_le_pow_left₀ hq.le h1 2
      linarith
    have e : q / (1 + q) ^ 2 * u ^ 2 * L + L ^ 2 - (q / (1 + q)) ^ 2 * u ^ 2 = (((1 + q) * L) ^ 2 - u ^ 2 * q * (q - L)) / (1 + q) ^ 2 := by
      field_simp; ring
    have : 0 ≤ (((1 + q) * L) ^ 2 - u ^ 2 * q * (q - L)) / (1 + q) ^ 2 := div_nonneg (by linarith) (by positivity)
    linarith

/-- The mean of `r (1 - r) log(x/s)²`. -/
noncomputable def V (xs : List ℝ) (c s : ℝ) : ℝ :=
  sampleMean (xs.map fun x => q c s x / (1 + q c s x) ^ 2 * Real.log (x / s) ^ 2)

theorem hasDerivAt_H (hs : 0 < s) (hx : ∀ x ∈ xs, 0 < x) (c : ℝ) : HasDerivAt (fun c => H xs c s) (T xs c s) c := by
  refine hasDerivAt_mean fun x hm => ?_
  simp only [r, q_exp hs (hx x hm)]
  have h1 : HasDerivAt (fun c => 1 + Real.exp (c * Real.log (x / s))) (Real.exp (c * Real.log (x / s)) * (1 * Real.log (x / s))) c :=
    (((hasDerivAt_id c).mul_const _).exp).const_add 1
  refine (h1.log (by positivity)).congr_deriv ?_
  ring

theorem hasDerivAt_T (hs : 0 < s) (hx : ∀ x ∈ xs, 0 < x) (c : ℝ) : HasDerivAt (fun c => T xs c s) (V xs c s) c := by
  refine hasDerivAt_mean fun x hm => ?_
  simp only [r, q_exp hs (hx x hm)]
  have h0 : HasDerivAt (fun c => Real.exp (c * Real.log (x / s))) (Real.exp (c * Real.log (x / s)) * (1 * Real.log (x / s))) c :=
    ((hasDerivAt_id c).mul_const _).exp
  have h2 : (1 + Real.exp (c * Real.log (x / s))) ≠ 0 := by positivity
  refine ((h0.div (h0.const_add 1) h2).mul_const _).congr_deriv ?_
  field_simp
  ring

/-- The profile likelihood, in which `d` is the best one for `c`, is concave. -/
theorem profile_deriv_nonpos (hn : xs ≠ []) (hs : 0 < s) (hx : ∀ x ∈ xs, 0 < x) (hc : 0 < c) :
    -1 / c ^ 2 + T xs c s ^ 2 / H xs c s ^ 2 - V xs c s / H xs c s - V xs c s ≤ 0 := by
  have hH : 0 < H xs c s := H_pos hn hs hx
  have hV : 0 ≤ V xs c s := by
    have h1 : sampleMean (xs.map fun _ => (0:ℝ)) ≤ V xs c s := sampleMean_le fun x hm => by
      have := qx_pos (c := c) hs (hx x hm); positivity
    rwa [sampleMean_const hn] at h1
  set lam := T xs c s / H xs c s with hlam
  have h1 : sampleMean (xs.map fun x => 2 * lam * (r c s x * Real.log (x / s))) ≤
      sampleMean (xs.map fun x => (lam ^ 2 + 1 / c ^ 2) * Real.log (1 + q c s x) + q c s x / (1 + q c s x) ^ 2 * Real.log (x / s) ^ 2) := by
    refine sampleMean_le fun x hm => ?_
    have hq := qx_pos (c := c) hs (hx x hm)
    have h2 := softplus_ineq (c * Real.log (x / s))
    rw [← q_exp hs (hx x hm), ← r] at h2
    have hL : 0 < Real.log (1 + q c s x) := Real.log_pos (by linarith)
    set L := Real.log (1 + q c s x)
    set w := Real.log (x / s)
    set ρ := r c s x
    set v := q c s x / (1 + q c s x) ^ 2
    have h3 : ρ ^ 2 * w ^ 2 ≤ v * w ^ 2 * L + 1 / c ^ 2 * L ^ 2 := by
      have e : v * w ^ 2 * L + 1 / c ^ 2 * L ^ 2 - ρ ^ 2 * w ^ 2 = (v * (c * w) ^ 2 * L + L ^ 2 - ρ ^ 2 * (c * w) ^ 2) / c ^ 2 := by
        field_simp
      have : 0 ≤ (v * (c * w) ^ 2 * L + L ^ 2 - ρ ^ 2 * (c * w) ^ 2) / c ^ 2 := div_nonneg (by linarith) (by positivity)
      linarith
    refine le_of_mul_le_mul_right ?_ hL
    nlinarith [sq_nonneg (lam * L - ρ * w)]
  rw [sampleMean_mul, sampleMean_add, sampleMean_mul, show sampleMean (xs.map fun x => Real.log (1 + q c s x)) = H xs c s from rfl,
    show sampleMean (xs.map fun x => r c s x * Real.log (x / s)) = T xs c s from rfl,
    show sampleMean (xs.map fun x => q c s x / (1 + q c s x) ^ 2 * Real.log (x / s) ^ 2) = V xs c s from rfl] at h1
  have hT : T xs c s = lam * H xs c s := by rw [hlam]; field_simp
  rw [hT] at h1
  have h2 : lam ^ 2 ≤ 1 / c ^ 2 + V xs c s / H xs c s := by
    have h3 : (lam ^ 2 - 1 / c ^ 2) * H xs c s ≤ V xs c s := by linarith
    have := (le_div_iff₀ hH).2 h3
    linarith
  have h3 : T xs c s ^ 2 / H xs c s ^ 2 = lam ^ 2 := by rw [hlam, div_pow]
  rw [h3, neg_div]
  linarith

/-- With the scale fixed, a zero of the profile equation is the maximum over `c` and `d`. -/
theorem isMle_cd (hn : xs ≠ []) (hx : ∀ x ∈ xs, 0 < x) (hc : 0 < c) (hs : 0 < s) (h : E1 xs c (1 / H xs c s) s = 0) :
    IsMle (fun θ : ℝ × ℝ => 0 < θ.1 ∧ 0 < θ.2) (fun θ => nll (xs.map fin) (fin θ.1) (fin θ.2) (fin s)) (c, 1 / H xs c s) := by
  have hH : ∀ c, 0 < H xs c s := fun c => H_pos hn hs hx
  have hE : ∀ c, 0 < c → HasDerivAt (fun c => E1 xs c (1 / H xs c s) s)
      (-1 / c ^ 2 + T xs c s ^ 2 / H xs c s ^ 2 - V xs c s / H xs c s - V xs c s) c := fun c hc => by
    have h1 : HasDerivAt (fun c : ℝ => 1 / c) (-1 / c ^ 2) c := by
      simpa [one_div, neg_div] using hasDerivAt_inv hc.ne'
    have h2 : HasDerivAt (fun c : ℝ => 1 / H xs c s) (-T xs c s / H xs c s ^ 2) c := by
      simpa [one_div] using (hasDerivAt_H hs hx c).fun_inv (hH c).ne'
    have h3 := (((h1.sub_const (Real.log s)).add_const (sampleMean (xs.map Real.log))).sub ((h2.add_const 1).mul (hasDerivAt_T hs hx c)))
    refine h3.congr_deriv ?_
    have := (hH c).ne'
    field_simp
    ring
  have hP : ∀ c, 0 < c → HasDerivAt (fun c => N xs c (1 / H xs c s) s) (-E1 xs c (1 / H xs c s) s) c := fun c hc => by
    have e : (fun c => N xs c (1 / H xs c s) s) = fun c => -Real.log c + Real.log (H xs c s) - (c - 1) * sampleMean (xs.map Real.log) +
        c * Real.log s + (1 + H xs c s) := by
      funext c
      have := (hH c).ne'
      have e2 : (1 / H xs c s + 1) * H xs c s = 1 + H xs c s := by field_simp
      rw [N, e2, one_div, Real.log_inv]; ring
    rw [e]
    have h1 := ((((Real.hasDerivAt_log hc.ne').neg.add ((hasDerivAt_H hs hx c).log (hH c).ne')).sub
      (((hasDerivAt_id c).sub_const 1).mul_const (sampleMean (xs.map Real.log)))).add ((hasDerivAt_id c).mul_const (Real.log s))).add
      ((hasDerivAt_H hs hx c).const_add 1)
    refine h1.congr_deriv ?_
    have := (hH c).ne'
    rw [E1]
    field_simp
    ring
  have hanti : AntitoneOn (fun c => E1 xs c (1 / H xs c s) s) (Set.Ioi 0) := by
    refine antitoneOn_of_deriv_nonpos (convex_Ioi 0) (fun c hc => (hE c hc).continuousAt.continuousWithinAt)
      (fun c hc => ((hE c (interior_subset hc)).differentiableAt).differentiableWithinAt) fun c hc => ?_
    rw [(hE c (interior_subset hc)).deriv]
    exact profile_deriv_nonpos hn hs hx (interior_subset hc)
  have hmin : ∀ t, 0 < t → N xs c (1 / H xs c s) s ≤ N xs t (1 / H xs t s) s := fun t ht =>
    min_of_deriv_sign (h := fun c => N xs c (1 / H xs c s) s) hP hc
      (fun u hu huc => by have := hanti hu hc huc.le; simp only [h] at this; linarith)
      (fun u hu => by have := hanti hc (hc.trans hu) hu.le; simp only [h] at this; linarith) ht
  exact isMle_of (⟨hc, one_div_pos.2 (hH c)⟩ : 0 < (c, 1 / H xs c s).1 ∧ 0 < (c, 1 / H xs c s).2) (fun _ h => nll_eval hn h.1 h.2 hs hx)
    fun θ hθ => mul_le_mul_of_nonneg_left ((hmin θ.1 hθ.1).trans (d_min (hH θ.1) hθ.2)) (by positivity)

/-- C31: with the scale fixed, if the root finder returns a positive `c`, `c` and `d` maximise the likelihood.  Missing: that
the loop for the bracket ends and the secant method returns a root; see `mle_fixedScale` and `mle_fixedScale_diverges`. -/
theorem mle_fixedScale_partial (hf : SoundFinderB findrootB) (hn : xs ≠ []) (hx : ∀ x ∈ xs, 0 < x) (hs : 0 < s) (hp : ∀ v, pc ≠ .fixed v)
    (hq : ∀ v, pd ≠ .fixed v) {d' s' : Num}
    (h : mle findroot findrootB findroot2 findroot3 eps fuel (xs.map fin) pc pd (.fixed (fin s)) = .ok (fin c, d', s')) (hc : 0 < c) :
    s' = fin s ∧ ∃ d : ℝ, d' = fin d ∧
      IsMle (fun θ : ℝ × ℝ => 0 < θ.1 ∧ 0 < θ.2) (fun θ => nll (xs.map fin) (fin θ.1) (fin θ.2) (fin s)) (c, d) := by
  have h2 : mle findroot findrootB findroot2 findroot3 eps fuel (xs.map fin) pc pd (.fixed (fin s)) = (do
      let (_, _, scale) ← validateParams pc.start pd.start (fin s)
      let (lo, hi) ← findCBracketScaleFixed eps fuel (xs.map fin) scale
      let c ← findrootB (fun t => cEqScaleFixed t (xs.map fin) scale) lo hi
      let d ← dFor (xs.map fin) c scale
      return (c, d, scale)) := by
    cases pd with
    | fixed v => exact absurd rfl (hq v)
    | none | initial v =>
      cases pc with
      | fixed v => exact absurd rfl (hp v)
      | none | initial v => simp only [mle, zero_def, bounds hx, ok_bind]
  rw [h2] at h
  obtain ⟨t, h3, h4⟩ := ok_of_bind h
  rw [validate_inv h3] at h4
  obtain ⟨b, h5, h6⟩ := ok_of_bind h4
  obtain ⟨r, h7, h8⟩ := ok_of_bind h6
  obtain ⟨w, h9, h10⟩ := ok_of_bind h8
  obtain ⟨rfl, h11⟩ := Prod.mk.inj (Except.ok.inj h10)
  obtain ⟨rfl, rfl⟩ := Prod.mk.inj h11
  rw [dFor_eval hn hs hx] at h9
  have h12 := hf _ _ _ _ h7
  rw [cEqScaleFixed_eval hn hc.ne' hs hx, zero_def] at h12
  have h13 := (mul_eq_zero.1 (fin.inj (Except.ok.inj h12))).resolve_left (length_pos hn).ne'
  exact ⟨rfl, _, (Except.ok.inj h9).symm, isMle_cd hn hx hc hs h13⟩

/-- The profile equation for small `c`. -/
theorem profile_small (hn : xs ≠ []) (hx : ∀ x ∈ xs, 0 < x) (hs : 0 < s) (hε : 0 < ε)
    (hsmall : ∀ x ∈ xs, ε * |Real.log (x / s)| ≤ 1 / 4) : 0 < E1 xs ε (1 / H xs ε s) s := by
  have hH : 3 / 7 ≤ H xs ε s := by
    rw [← sampleMean_const hn (3 / 7 : ℝ)]
    refine sampleMean_le fun x hm => ?_
    have h1 : (3 / 4 : ℝ) ≤ q ε s x := by
      rw [q_exp hs (hx x hm)]
      have h2 := Real.add_one_le_exp (ε * Real.log (x / s))
      have h3 : -(ε * |Real.log (x / s)|) ≤ ε * Real.log (x / s) := by
        rw [← mul_neg]; exact mul_le_mul_of_nonneg_left (neg_abs_le _) hε.le
      have := hsmall x hm
      linarith
    have h4 := Real.one_sub_inv_le_log_of_pos (show 0 < 1 + q ε s x by linarith)
    have h5 : (1 + q ε s x)⁻¹ ≤ (7 / 4 : ℝ)⁻¹ := inv_anti₀ (by norm_num) (by linarith)
    norm_num at h5
    linarith
  have hH0 : 0 < H xs ε s := by linarith
  refine E1_small hn hx (one_div_pos.2 hH0) hs hε fun x hm => ?_
  have h1 : 1 / H xs ε s ≤ 7 / 3 := by rw [div_le_iff₀ hH0]; linarith
  have h2 := hsmall x hm
  have h3 : 0 ≤ ε * |Real.log (x / s)| := by positivity
  nlinarith

/-- The profile equation for large `c`. -/
theorem profile_large (hx : ∀ x ∈ xs, 0 < x) (hs : 0 < s) (h1 : ∃ x ∈ xs, x < s) (h2 : ∃ x ∈ xs, s ≤ x) :
    ∃ C, ∀ c, C ≤ c → E1 xs c (1 / H xs c s) s < 0 := by
  have hn : xs ≠ [] := by obtain ⟨x, hx, -⟩ := h1; exact List.ne_nil_of_mem hx
  have hl2 : 0 < Real.log 2 := Real.log_pos one_lt_two
  have hκ : 0 < sampleMean (xs.map fun x => if s ≤ x then Real.log 2 else 0) := sampleMean_pos
    (fun x _ => by split_ifs <;> simp [hl2.le]) (by obtain ⟨x, hm, h⟩ := h2; exact ⟨x, hm, by simp [h, hl2]⟩)
  have hm' : 0 < sampleMean (xs.map fun x => -min (Real.log (x / s)) 0) := sampleMean_pos (fun x _ => by simp) (by
    obtain ⟨x, hm, h⟩ := h1
    have : Real.log (x / s) < 0 := Real.log_neg (div_pos (hx x hm) hs) ((div_lt_one hs).2 h)
    exact ⟨x, hm, by rw [min_eq_left this.le]; linarith⟩)
  set κ := sampleMean (xs.map fun x => if s ≤ x then Real.log 2 else 0)
  set m := sampleMean (xs.map fun x => -min (Real.log (x / s)) 0) with hmdef
  refine ⟨2 * (1 + Real.log 2 / κ) / m + 1, fun c hC => ?_⟩
  have hpos : 0 < 2 * (1 + Real.log 2 / κ) / m := by positivity
  have hc : 0 < c := by linarith
  have hHκ : κ ≤ H xs c s := sampleMean_le fun x hm => by
    have hq := qx_pos (c := c) hs (hx x hm)
    split_ifs with h
    · refine Real.log_le_log two_pos ?_
      have : 1 ≤ q c s x := Real.one_le_rpow ((one_le_div hs).2 h) hc.le
      linarith
    · exact Real.log_nonneg (by linarith)
  have hH : 0 < H xs c s := hκ.trans_le hHκ
  -- the mean of `w - r w`
  have h3 : sampleMean (xs.map fun x => Real.log (x / s) + -1 * (r c s x * Real.log (x / s))) ≤
      sampleMean (xs.map fun x => 1 / c + -(1 / 2) * -min (Real.log (x / s)) 0) := sampleMean_le fun x hm => by
    have hr := r_exp (c := c) hs (hx x hm)
    set w := Real.log (x / s)
    rw [hr]
    rcases le_total 0 w with hw | hw
    · rw [min_eq_right hw]
      have h4 := Real.add_one_le_exp (c * w)
      have e : w + -1 * (1 / (1 + Real.exp (-(c * w))) * w) = w / (1 + Real.exp (c * w)) := by
        rw [Real.exp_neg]
        have := Real.exp_pos (c * w)
        field_simp
        ring
      rw [e, neg_zero, mul_zero, add_zero, div_le_div_iff₀ (by positivity) hc]
      nlinarith
    · rw [min_eq_left hw]
      have h4 : 1 / (1 + Real.exp (-(c * w))) ≤ 1 / 2 := by
        refine one_div_le_one_div_of_le two_pos ?_
        have : 1 ≤ Real.exp (-(c * w)) := Real.one_le_exp (by nlinarith)
        linarith
      have h5 : 0 < 1 / c := by positivity
      nlinarith
  rw [sampleMean_add, sampleMean_mul, sampleMean_affine hn, ← hmdef,
    show sampleMean (xs.map fun x => r c s x * Real.log (x / s)) = T xs c s from rfl] at h3
  have h4 : sampleMean (xs.map fun x => Real.log (x / s)) = -Real.log s + 1 * sampleMean (xs.map Real.log) := by
    rw [← sampleMean_affine hn]
    exact sampleMean_congr fun x hm => by rw [Real.log_div (hx x hm).ne' hs.ne']; ring
  rw [h4] at h3
  -- the entropy
  have h5 : H xs c s - c * T xs c s ≤ Real.log 2 := by
    have h6 : sampleMean (xs.map fun x => Real.log (1 + q c s x) + -c * (r c s x * Real.log (x / s))) ≤
        sampleMean (xs.map fun _ => Real.log 2) := sampleMean_le fun x hm => by
      have h7 := softplus_tangent (c * Real.log (x / s)) 0
      rw [← q_exp hs (hx x hm), ← r, Real.exp_zero, one_add_one_eq_two] at h7
      linarith
    rw [sampleMean_const hn, sampleMean_add, sampleMean_mul, show sampleMean (xs.map fun x => Real.log (1 + q c s x)) = H xs c s from rfl,
      show sampleMean (xs.map fun x => r c s x * Real.log (x / s)) = T xs c s from rfl] at h6
    linarith
  have h6 : 1 / c - 1 / H xs c s * T xs c s ≤ Real.log 2 / κ * (1 / c) := by
    have e : 1 / c - 1 / H xs c s * T xs c s = (H xs c s - c * T xs c s) / (c * H xs c s) := by field_simp
    rw [e]
    calc _ ≤ Real.log 2 / (c * H xs c s) := by gcongr
      _ ≤ Real.log 2 / (c * κ) := by gcongr
      _ = _ := by field_simp
  have h7 : (1 + Real.log 2 / κ) * (1 / c) < m / 2 := by
    rw [mul_one_div, div_lt_iff₀ hc]
    have : 2 * (1 + Real.log 2 / κ) / m < c := by linarith
    rw [div_lt_iff₀ hm'] at this
    linarith
  rw [E1]
  linarith

/-- The profile equation for large `c` when all data are below the scale. -/
theorem profile_large_below (hn : xs ≠ []) (hx : ∀ x ∈ xs, 0 < x) (hs : 0 < s) (h1 : ∀ x ∈ xs, x < s) (hv : ¬ ∃ k, ∀ x ∈ xs, x = k) :
    ∃ C, ∀ c, C ≤ c → E1 xs c (1 / H xs c s) s < 0 := by
  obtain ⟨y, hy, hmax⟩ : ∃ y ∈ xs, ∀ x ∈ xs, x ≤ y := by
    obtain ⟨y, h2, h3, -⟩ := py.max_fin hn
    exact ⟨y, h2, h3⟩
  have hw : ∀ x ∈ xs, Real.log (x / s) < 0 := fun x hm => Real.log_neg (div_pos (hx x hm) hs) ((div_lt_one hs).2 (h1 x hm))
  have hle : ∀ x ∈ xs, Real.log (x / s) ≤ Real.log (y / s) := fun x hm =>
    Real.log_le_log (div_pos (hx x hm) hs) (div_le_div_of_nonneg_right (hmax x hm) hs.le)
  set M := Real.log (y / s) with hM
  -- the mean is below the maximum
  have hgap : 0 < sampleMean (xs.map fun x => M - Real.log (x / s)) := by
    refine sampleMean_pos (fun x hm => by have := hle x hm; linarith) ?_
    by_contra hno
    push Not at hno
    refine hv ⟨y, fun x hm => ?_⟩
    have h2 : Real.log (x / s) = Real.log (y / s) := le_antisymm (hle x hm) (by have := hno x hm; linarith)
    have h3 := Real.log_injOn_pos (div_pos (hx x hm) hs) (div_pos (hx y hy) hs) h2
    exact (div_left_inj' hs.ne').1 h3
  have hκ : 0 < sampleMean (xs.map fun x => if x = y then (1 / 2 : ℝ) else 0) := sampleMean_pos
    (fun x _ => by split_ifs <;> norm_num) ⟨y, hy, by simp⟩
  set g := sampleMean (xs.map fun x => M - Real.log (x / s)) with hg
  set κ := sampleMean (xs.map fun x => if x = y then (1 / 2 : ℝ) else 0) with hκd
  refine ⟨(2 + 1 / κ) / g + 1, fun c hC => ?_⟩
  have hpos : 0 < (2 + 1 / κ) / g := by positivity
  have hc : 0 < c := by linarith
  have hH : 0 < H xs c s := H_pos hn hs hx
  have hic : 0 < 1 / c := by positivity
  -- `u exp(-c u)` is at most `1/c`
  have hue : ∀ u : ℝ, u * Real.exp (-(c * u)) ≤ 1 / c := fun u => by
    have h2 := Real.add_one_le_exp (c * u)
    rw [Real.exp_neg, ← div_eq_mul_inv, div_le_div_iff₀ (Real.exp_pos _) hc]
    linarith
  have hrq : ∀ x ∈ xs, r c s x ≤ q c s x := fun x hm => by
    have := qx_pos (c := c) hs (hx x hm)
    rw [r, div_le_iff₀ (by positivity)]
    nlinarith
  have hEM : Real.exp (c * M) ≤ 1 := Real.exp_le_one_iff.2 (by have := hw y hy; nlinarith)
  -- `-T` is small
  have h3 : -T xs c s ≤ 1 / c := by
    have h4 : sampleMean (xs.map fun x => -1 * (r c s x * Real.log (x / s))) ≤ sampleMean (xs.map fun _ => 1 / c) := sampleMean_le fun x hm => by
      have h5 := hue (-Real.log (x / s))
      have h6 := mul_le_mul_of_nonneg_right (hrq x hm) (show 0 ≤ -Real.log (x / s) by have := hw x hm; linarith)
      rw [q_exp hs (hx x hm)] at h6
      rw [mul_neg, neg_neg] at h5
      linarith
    rw [sampleMean_const hn, sampleMean_mul, show sampleMean (xs.map fun x => r c s x * Real.log (x / s)) = T xs c s from rfl] at h4
    linarith
  -- `-T` compared with the mean of `r`
  have h4 : -T xs c s ≤ -M * R xs c s + Real.exp (c * M) * (1 / c) := by
    have h5 : sampleMean (xs.map fun x => -1 * (r c s x * Real.log (x / s))) ≤
        sampleMean (xs.map fun x => Real.exp (c * M) * (1 / c) + -M * r c s x) := sampleMean_le fun x hm => by
      have h6 := hue (M - Real.log (x / s))
      have h7 := mul_le_mul_of_nonneg_right (hrq x hm) (show 0 ≤ M - Real.log (x / s) by have := hle x hm; linarith)
      have h8 : q c s x = Real.exp (c * M) * Real.exp (-(c * (M - Real.log (x / s)))) := by
        rw [q_exp hs (hx x hm), ← Real.exp_add]; congr 1; ring
      rw [h8] at h7
      have h9 := mul_le_mul_of_nonneg_left h6 (Real.exp_pos (c * M)).le
      linarith
    rw [sampleMean_affine hn, sampleMean_mul, show sampleMean (xs.map fun x => r c s x * Real.log (x / s)) = T xs c s from rfl,
      show sampleMean (xs.map fun x => r c s x) = R xs c s from rfl] at h5
    linarith
  have h5 : R xs c s ≤ H xs c s := sampleMean_le fun x hm => by
    have hq := qx_pos (c := c) hs (hx x hm)
    have h6 := Real.one_sub_inv_le_log_of_pos (show 0 < 1 + q c s x by linarith)
    have e : 1 - (1 + q c s x)⁻¹ = r c s x := by rw [r]; field_simp; ring
    rwa [e] at h6
  have h6 : κ * Real.exp (c * M) ≤ R xs c s := by
    rw [mul_comm, hκd, ← sampleMean_mul]
    refine sampleMean_le fun x hm => ?_
    split_ifs with h
    · subst h
      have e : q c s x = Real.exp (c * M) := by rw [q_exp hs (hx x hm)]
      have := Real.exp_pos (c * M)
      rw [r, e, mul_one_div]
      refine div_le_div_of_nonneg_left this.le (by positivity) (by linarith)
    · rw [mul_zero]; exact (r_mem hs (hx x hm)).1.le
  have hM0 : M < 0 := hw y hy
  have h7 : -(1 / H xs c s * T xs c s) ≤ -M + 1 / κ * (1 / c) := by
    have h8 : -T xs c s ≤ (-M + 1 / κ * (1 / c)) * H xs c s := by
      have h9 : Real.exp (c * M) ≤ 1 / κ * H xs c s := by
        rw [one_div_mul_eq_div, le_div_iff₀ hκ]; linarith
      have h10 := mul_le_mul_of_nonneg_left h5 (show 0 ≤ -M by linarith)
      have h11 := mul_le_mul_of_nonneg_right h9 hic.le
      nlinarith
    rw [← mul_neg, one_div_mul_eq_div, div_le_iff₀ hH]
    exact h8
  have h8 : g = M - sampleMean (xs.map fun x => Real.log (x / s)) := by
    rw [hg, sampleMean_congr (ψ := fun x => M + -1 * Real.log (x / s)) fun x _ => by ring, sampleMean_affine hn]; ring
  have h9 : sampleMean (xs.map fun x => Real.log (x / s)) = -Real.log s + 1 * sampleMean (xs.map Real.log) := by
    rw [← sampleMean_affine hn]
    exact sampleMean_congr fun x hm => by rw [Real.log_div (hx x hm).ne' hs.ne']; ring
  have h10 : (2 + 1 / κ) * (1 / c) < g := by
    rw [mul_one_div, div_lt_iff₀ hc]
    have : (2 + 1 / κ) / g < c := by linarith
    rw [div_lt_iff₀ hgap] at this
    linarith
  rw [E1]
  linarith

/-- The profile equation for large `c`, for data that are not all equal, at least one of them below the scale. -/
theorem profile_large' (hx : ∀ x ∈ xs, 0 < x) (hs : 0 < s) (h1 : ∃ x ∈ xs, x < s) (hv : ¬ ∃ k, ∀ x ∈ xs, x = k) :
    ∃ C, ∀ c, C ≤ c → E1 xs c (1 / H xs c s) s < 0 := by
  by_cases h2 : ∃ x ∈ xs, s ≤ x
  · exact profile_large hx hs h1 h2
  · push Not at h2
    exact profile_large_below (by obtain ⟨x, hm, -⟩ := h1; exact List.ne_nil_of_mem hm) hx hs h2 hv

/-- In the other cases the profile equation is positive everywhere. -/
theorem profile_pos (hn : xs ≠ []) (hx : ∀ x ∈ xs, 0 < x) (hs : 0 < s) (h : (∀ x ∈ xs, s ≤ x) ∨ ∃ k, ∀ x ∈ xs, x = k) (hc : 0 < c) :
    0 < E1 xs c (1 / H xs c s) s := by
  have hH : 0 < H xs c s := H_pos hn hs hx
  have h9 : sampleMean (xs.map fun x => Real.log (x / s)) = -Real.log s + 1 * sampleMean (xs.map Real.log) := by
    rw [← sampleMean_affine hn]
    exact sampleMean_congr fun x hm => by rw [Real.log_div (hx x hm).ne' hs.ne']; ring
  have key : ∀ hge : ∀ x ∈ xs, s ≤ x, 0 < E1 xs c (1 / H xs c s) s := fun hge => by
    have hw : ∀ x ∈ xs, 0 ≤ Real.log (x / s) := fun x hm => Real.log_nonneg ((one_le_div hs).2 (hge x hm))
    have h3 : T xs c s ≤ sampleMean (xs.map fun x => Real.log (x / s)) := sampleMean_le fun x hm => by
      have := mul_le_mul_of_nonneg_right (r_mem (c := c) hs (hx x hm)).2.le (hw x hm)
      linarith
    have h4 : 0 < sampleMean (xs.map fun x => Real.log (1 + q c s x) + -c * (r c s x * Real.log (x / s))) := by
      have h5 : ∀ x ∈ xs, 0 < Real.log (1 + q c s x) + -c * (r c s x * Real.log (x / s)) := fun x hm => by
        have hq := qx_pos (c := c) hs (hx x hm)
        have h6 : c * Real.log (x / s) < Real.log (1 + q c s x) := by
          rw [Real.lt_log_iff_exp_lt (by linarith), ← q_exp hs (hx x hm)]; linarith
        have h7 := mul_le_mul_of_nonneg_right (r_mem (c := c) hs (hx x hm)).2.le (mul_nonneg hc.le (hw x hm))
        linarith
      obtain ⟨y, hy⟩ := List.exists_mem_of_ne_nil _ hn
      exact sampleMean_pos (fun x hm => (h5 x hm).le) ⟨y, hy, h5 y hy⟩
    rw [sampleMean_add, sampleMean_mul, show sampleMean (xs.map fun x => Real.log (1 + q c s x)) = H xs c s from rfl,
      show sampleMean (xs.map fun x => r c s x * Real.log (x / s)) = T xs c s from rfl] at h4
    have h5 : 0 < 1 / c - 1 / H xs c s * T xs c s := by
      have e : 1 / c - 1 / H xs c s * T xs c s = (H xs c s + -c * T xs c s) / (c * H xs c s) := by field_simp; ring
      rw [e]; positivity
    rw [E1]
    linarith
  rcases h with hge | ⟨k, hk⟩
  · exact key hge
  · obtain ⟨y, hy⟩ := List.exists_mem_of_ne_nil _ hn
    have hk0 : 0 < k := by rw [← hk y hy]; exact hx y hy
    rcases le_or_gt s k with hsk | hsk
    · exact key fun x hm => by rw [hk x hm]; exact hsk
    · have hq := qx_pos (c := c) hs hk0
      have e1 : H xs c s = Real.log (1 + q c s k) := by
        rw [H, sampleMean_congr (ψ := fun _ => Real.log (1 + q c s k)) fun x hm => by rw [hk x hm], sampleMean_const hn]
      have e2 : T xs c s = r c s k * Real.log (k / s) := by
        rw [T, sampleMean_congr (ψ := fun _ => r c s k * Real.log (k / s)) fun x hm => by rw [hk x hm], sampleMean_const hn]
      have e3 : sampleMean (xs.map fun x => Real.log (x / s)) = Real.log (k / s) := by
        rw [sampleMean_congr (ψ := fun _ => Real.log (k / s)) fun x hm => by rw [hk x hm], sampleMean_const hn]
      have hw : Real.log (k / s) < 0 := Real.log_neg (div_pos hk0 hs) ((div_lt_one hs).2 hsk)
      have h3 : Real.log (1 + q c s k) ≤ q c s k := by
        have := Real.log_le_sub_one_of_pos (show 0 < 1 + q c s k by linarith)
        linarith
      rw [e1] at hH
      have h4 : 1 - r c s k ≤ 1 / H xs c s * r c s k := by
        rw [e1, one_div_mul_eq_div, le_div_iff₀ hH, show r c s k = q c s k * (1 - r c s k) by rw [r]; field_simp; ring, mul_comm (q c s k)]
        have h5 : 0 ≤ 1 - r c s k := by have := (r_mem (c := c) hs hk0).2; linarith
        have h6 : 1 - (1 - r c s k) * q c s k = 1 - r c s k := by rw [r]; field_simp; ring
        rw [h6]
        exact mul_le_mul_of_nonneg_left h3 h5
      have h5 : 0 < 1 / c := by positivity
      have h6 := mul_le_mul_of_nonpos_right h4 hw.le
      rw [e3] at h9
      rw [E1, e2]
      nlinarith

theorem continuousOn_profile (hn : xs ≠ []) (hs : 0 < s) (hx : ∀ x ∈ xs, 0 < x) :
    ContinuousOn (fun c => E1 xs c (1 / H xs c s) s) (Set.Ioi 0) := by
  have hH : ContinuousOn (fun c => H xs c s) (Set.Ioi 0) := fun c _ => tendsto_sampleMean fun x hm => by
    have h1 : Continuous fun c => Real.log (1 + Real.exp (c * Real.log (x / s))) := by
      have : ∀ c, 1 + Real.exp (c * Real.log (x / s)) ≠ 0 := fun c => by positivity
      fun_prop (disch := exact this _)
    simp only [q_exp hs (hx x hm)]
    exact h1.continuousAt.continuousWithinAt
  have hT : ContinuousOn (fun c => E1 xs c 0 s - E1 xs c 1 s) (Set.Ioi 0) := (continuousOn_E1 hs hx).sub (continuousOn_E1 hs hx)
  have h2 := (continuousOn_E1 (d := 0) hs hx).sub ((continuousOn_const (c := (1:ℝ)).div hH fun c _ => (H_pos hn hs hx).ne').mul hT)
  refine h2.congr fun c _ => ?_
  simp only [E1, Pi.sub_apply, Pi.mul_apply, Pi.div_apply]
  ring

/-- C31: with the scale fixed, for data that are not all equal and at least one of them below the scale, the loop that looks
for a bracket of `c` ends, and with a root finder that finds the zero in the bracket, `c` and `d` maximise the likelihood.
In all other cases the loop does not end (`mle_fixedScale_diverges`). -/
theorem mle_fixedScale (hf : RootFinder findrootB) (hx : ∀ x ∈ xs, 0 < x) (hs : 0 < s) (h1 : ∃ x ∈ xs, x < s)
    (hv : ¬ ∃ k, ∀ x ∈ xs, x = k) (hp : pc = .none ∨ ∃ v, 0 < v ∧ pc = .initial (fin v))
    (hq : pd = .none ∨ ∃ v, 0 < v ∧ pd = .initial (fin v)) (hε : 0 < ε) (hsmall : ∀ x ∈ xs, ε * |Real.log (x / s)| ≤ 1 / 4) :
    ∃ (c d : ℝ) (K : ℕ), (∀ fuel ≥ K, mle findroot findrootB findroot2 findroot3 (fin ε) fuel (xs.map fin) pc pd
      (.fixed (fin s)) = .ok (fin c, fin d, fin s)) ∧
    IsMle (fun θ : ℝ × ℝ => 0 < θ.1 ∧ 0 < θ.2) (fun θ => nll (xs.map fin) (fin θ.1) (fin θ.2) (fin s)) (c, d) := by
  have hn : xs ≠ [] := by obtain ⟨x, hx, -⟩ := h1; exact List.ne_nil_of_mem hx
  have hl := length_pos hn
  obtain ⟨lo, hi, K, h2, h3, h4, h5, h6⟩ := bracket_finds (func := fun c => cEqScaleFixed c (xs.map fin) (fin s)) (test := (0 < ·))
    (g := fun c => xs.length * E1 xs c (1 / H xs c s) s) (σ := -1) hε (fun t ht => cEqScaleFixed_eval hn ht.ne' hs hx)
    (fun v => by simp) (by have := mul_pos hl (profile_small hn hx hs hε hsmall); linarith)
    (by
      obtain ⟨C, hC⟩ := profile_large' hx hs h1 hv
      exact ⟨C, fun c hc => by have := mul_pos_of_neg_of_neg (neg_lt_zero.2 hl) (hC c hc); linarith⟩)
  obtain ⟨c, hc, h7, h8⟩ := hf (fun c => cEqScaleFixed c (xs.map fin) (fin s)) (fun c => xs.length * E1 xs c (1 / H xs c s) s) lo hi h3
    (fun x hm => cEqScaleFixed_eval hn (h2.trans_le hm.1).ne' hs hx)
    (continuousOn_const.mul ((continuousOn_profile hn hs hx).mono fun x hm => h2.trans_le hm.1)) (Or.inr ⟨by linarith, by linarith⟩)
  have h8 : E1 xs c (1 / H xs c s) s = 0 := (mul_eq_zero.1 h8).resolve_left hl.ne'
  have hc0 : 0 < c := h2.trans_le hc.1
  refine ⟨c, 1 / H xs c s, K, fun fuel hK => ?_, isMle_cd hn hx hc0 hs h8⟩
  have h9 : findCBracketScaleFixed (fin ε) fuel (xs.map fin) (fin s) = .ok (fin lo, fin hi) := h6 fuel hK
  have h10 := dFor_eval (c := c) hn hs hx
  rcases hp with rfl | ⟨v, hv, rfl⟩ <;> rcases hq with rfl | ⟨u, hu, rfl⟩
  · simp only [mle, zero_def, bounds hx, ok_bind, Param.start, one_def, validate_ok one_pos one_pos hs, h9, h7, h10, pure_eq_ok]
  · simp only [mle, zero_def, bounds hx, ok_bind, Param.start, one_def, validate_ok one_pos hu hs, h9, h7, h10, pure_eq_ok]
  · simp only [mle, zero_def, bounds hx, ok_bind, Param.start, one_def, validate_ok hv one_pos hs, h9, h7, h10, pure_eq_ok]
  · simp only [mle, zero_def, bounds hx, ok_bind, Param.start, validate_ok hv hu hs, h9, h7, h10, pure_eq_ok]

/-- C31 violated: with the scale fixed, and all data at or above the scale, or all data equal, the equation for `c` has no zero
and the loop that looks for a bracket never ends. -/
theorem mle_fixedScale_diverges (hn : xs ≠ []) (hx : ∀ x ∈ xs, 0 < x) (hs : 0 < s) (h : (∀ x ∈ xs, s ≤ x) ∨ ∃ k, ∀ x ∈ xs, x = k)
    (hp : pc = .none ∨ ∃ v, 0 < v ∧ pc = .initial (fin v)) (hq : pd = .none ∨ ∃ v, 0 < v ∧ pd = .initial (fin v)) (hε : 0 < ε) (fuel : ℕ) :
    mle findroot findrootB findroot2 findroot3 (fin ε) fuel (xs.map fin) pc pd (.fixed (fin s)) = .error .diverges := by
  have hl := length_pos hn
  set g : ℝ → ℝ := fun c => xs.length * E1 xs c (1 / H xs c s) s with hg
  have hv : ∀ c, 0 < c → cEqScaleFixed (fin c) (xs.map fin) (fin s) = .ok (fin (g c)) := fun c hc => cEqScaleFixed_eval hn hc.ne' hs hx
  have hpos : ∀ c, 0 < c → 0 < g c := fun c hc => mul_pos hl (profile_pos hn hx hs h hc)
  have h1 : ∀ n (a : Num) b, 0 < b → loop (σ := Num × Num × Num) (fun st => pure (0 < st.2.2))
      (fun st => do
        let b := st.2.1 * 4
        return (st.2.1, b, ← cEqScaleFixed b (xs.map fin) (fin s))) n (a, fin b, fin (g b)) = .error .diverges := by
    intro n
    induction n with
    | zero => intros; rfl
    | succ n ih =>
      intro a b hb
      have h2 : (0:Num) < fin (g b) := by rw [zero_def, fin_lt]; exact hpos b hb
      have h3 : fin b * 4 = fin (b * 4) := by rw [ofNat_def, fin_mul]
      have := ih (fin b) (b * 4) (by linarith)
      simp only [pure_eq_ok] at this
      simp only [loop, pure_eq_ok, ok_bind, h2, if_true, h3, hv (b * 4) (by linarith)]
      exact this
  have h2 : findCBracketScaleFixed (fin ε) fuel (xs.map fin) (fin s) = .error .diverges := by
    simp only [findCBracketScaleFixed, bracket, hv ε hε, ok_bind]
    rw [h1 fuel 0 ε hε]; rfl
  rcases hp with rfl | ⟨v, hv, rfl⟩ <;> rcases hq with rfl | ⟨u, hu, rfl⟩
  · simp only [mle, zero_def, bounds hx, ok_bind, Param.start, one_def, validate_ok one_pos one_pos hs, h2]; rfl
  · simp only [mle, zero_def, bounds hx, ok_bind, Param.start, one_def, validate_ok one_pos hu hs, h2]; rfl
  · simp only [mle, zero_def, bounds hx, ok_bind, Param.start, one_def, validate_ok hv one_pos hs, h2]; rfl
  · simp only [mle, zero_def, bounds hx, ok_bind, Param.start, validate_ok hv hu hs, h2]; rfl

/-- Non-vacuity: the data 1, 2 with the scale 2 and `ε = 1/4`; they are all at or above the scale 1. -/
example : (∀ x ∈ [(1:ℝ), 2], 0 < x) ∧ (∃ x ∈ [(1:ℝ), 2], x < 2) ∧ (¬ ∃ k, ∀ x ∈ [(1:ℝ), 2], x = k) ∧ (∀ x ∈ [(1:ℝ), 2], 1 ≤ x) ∧
    ∀ x ∈ [(1:ℝ), 2], (1 / 4 : ℝ) * |Real.log (x / 2)| ≤ 1 / 4 := by
  refine ⟨by simp, ⟨1, by simp, by norm_num⟩, ?_, by norm_num, ?_⟩
  · rintro ⟨k, h⟩
    have h1 := h 1 (by simp)
    have h2 := h 2 (by simp)
    linarith
  have h := Real.log_le_sub_one_of_pos (show (0:ℝ) < 2 by norm_num)
  have h0 := Real.log_nonneg (show (1:ℝ) ≤ 2 by norm_num)
  simp only [List.mem_cons, List.not_mem_nil, or_false, forall_eq_or_imp, forall_eq, one_div, Real.log_inv, abs_neg, div_self (two_ne_zero (α := ℝ)), Real.log_one, abs_zero]
  rw [abs_of_nonneg h0]
  constructor <;> linarith

/-- C31: with `d` fixed, if the root finder returns a positive `c` and a positive scale, they maximise the likelihood over
all `c` and scales.  Missing: that it returns a root, and that it is positive. -/
theorem mle_fixedD_partial (hf : SoundFinder2 findroot2) (hn : xs ≠ []) (hx : ∀ x ∈ xs, 0 < x) (hd : 0 < d) (hp : ∀ v, pc ≠ .fixed v)
    (hq : ∀ v, ps ≠ .fixed v) {d' : Num}
    (h : mle findroot findrootB findroot2 findroot3 eps fuel (xs.map fin) pc (.fixed (fin d)) ps = .ok (fin c, d', fin s)) (hc : 0 < c)
    (hs : 0 < s) : d' = fin d ∧
    IsMle (fun θ : ℝ × ℝ => 0 < θ.1 ∧ 0 < θ.2) (fun θ => nll (xs.map fin) (fin θ.1) (fin d) (fin θ.2)) (c, s) := by
  have h2 : mle findroot findrootB findroot2 findroot3 eps fuel (xs.map fin) pc (.fixed (fin d)) ps = (do
      let (c0, d, scale0) ← validateParams pc.start (fin d) ps.start
      let (c, scale) ← mleCScale findroot2 (xs.map fin) d c0 scale0
      return (c, d, scale)) := by
    cases ps with
    | fixed v => exact absurd rfl (hq v)
    | none | initial v =>
      cases pc with
      | fixed v => exact absurd rfl (hp v)
      | none | initial v => simp only [mle, zero_def, bounds hx, ok_bind]
  rw [h2] at h
  obtain ⟨t, h3, h4⟩ := ok_of_bind h
  rw [validate_inv h3] at h4
  obtain ⟨⟨r1, r2⟩, h5, h6⟩ := ok_of_bind h4
  obtain ⟨rfl, h7⟩ := Prod.mk.inj (Except.ok.inj h6)
  obtain ⟨rfl, rfl⟩ := Prod.mk.inj h7
  have h8 := hf _ _ _ h5
  simp only [nllGrad_eval hn hc.ne' hd.ne' hs hx, ok_bind, pure_eq_ok, zero_def] at h8
  obtain ⟨h9, h10⟩ := Prod.mk.inj (Except.ok.inj h8)
  have hl := length_pos hn
  have h11 := (mul_eq_zero.1 (fin.inj h9)).resolve_left hl.ne'
  have h12 := (mul_eq_zero.1 (fin.inj h10)).resolve_left (neg_ne_zero.2 (by positivity))
  exact ⟨rfl, isMle_cs hn hx hc hd hs h11 h12⟩

/-- C31: with nothing fixed, if the root finder returns positive values, `c` and the scale together maximise the likelihood
for the `d` returned, and `d` does for this `c` and this scale.  Missing: that it returns a root, that it is positive,
and that this is the maximum over all three. -/
theorem mle_free_partial (hf : SoundFinder3 findroot3) (hn : xs ≠ []) (hx : ∀ x ∈ xs, 0 < x) (hp : ∀ v, pc ≠ .fixed v)
    (hq : ∀ v, pd ≠ .fixed v) (hr : ∀ v, ps ≠ .fixed v)
    (h : mle findroot findrootB findroot2 findroot3 eps fuel (xs.map fin) pc pd ps = .ok (fin c, fin d, fin s)) (hc : 0 < c) (hd : 0 < d)
    (hs : 0 < s) :
    IsMle (fun θ : ℝ × ℝ => 0 < θ.1 ∧ 0 < θ.2) (fun θ => nll (xs.map fin) (fin θ.1) (fin d) (fin θ.2)) (c, s) ∧
    IsMle (fun d : ℝ => 0 < d) (fun d => nll (xs.map fin) (fin c) (fin d) (fin s)) d := by
  have h2 : mle findroot findrootB findroot2 findroot3 eps fuel (xs.map fin) pc pd ps = (do
      let (c0, d0, scale0) ← validateParams pc.start pd.start ps.start
      findroot3 (fun c d scale => nllGrad (xs.map fin) c d scale) (c0, d0, scale0)) := by
    cases ps with
    | fixed v => exact absurd rfl (hr v)
    | none | initial v =>
      cases pd with
      | fixed v => exact absurd rfl (hq v)
      | none | initial v =>
        cases pc with
        | fixed v => exact absurd rfl (hp v)
        | none | initial v => simp only [mle, zero_def, bounds hx, ok_bind]
  rw [h2] at h
  obtain ⟨t, h3, h4⟩ := ok_of_bind h
  have h5 := hf _ _ _ h4
  simp only [nllGrad_eval hn hc.ne' hd.ne' hs hx, zero_def] at h5
  obtain ⟨h9, h10⟩ := Prod.mk.inj (Except.ok.inj h5)
  obtain ⟨h10, h11⟩ := Prod.mk.inj h10
  have hl := length_pos hn
  have e1 := (mul_eq_zero.1 (fin.inj h9)).resolve_left hl.ne'
  have e2 := (mul_eq_zero.1 (fin.inj h10)).resolve_left hl.ne'
  have e3 := (mul_eq_zero.1 (fin.inj h11)).resolve_left (neg_ne_zero.2 (by positivity))
  refine ⟨isMle_cs hn hx hc hd hs e1 e3, ?_⟩
  have e4 : d = 1 / H xs c s := by rw [← sub_eq_zero.1 e2, one_div_one_div]
  rw [e4]
  exact isMle_d hn hx hc hs

/-- C31: data that are not positive are rejected, and when everything is fixed it is validated and returned. -/
theorem mle_errors (xs : List ℝ) : ((∃ x ∈ xs, ¬ 0 < x) → ∀ pc pd ps,
      mle findroot findrootB findroot2 findroot3 eps fuel (xs.map fin) pc pd ps = .error .valueError) ∧
    ((∀ x ∈ xs, 0 < x) → mle findroot findrootB findroot2 findroot3 eps fuel (xs.map fin) (.fixed (fin c)) (.fixed (fin d)) (.fixed (fin s)) =
      if 0 < c ∧ 0 < d ∧ 0 < s then .ok (fin c, fin d, fin s) else .error .valueError) := by
  refine ⟨fun h pc pd ps => ?_, fun hx => ?_⟩
  · simp only [mle, zero_def, bounds_bad h]; rfl
  · simp only [mle, zero_def, bounds hx, ok_bind]
    by_cases h : 0 < c ∧ 0 < d ∧ 0 < s
    · rw [if_pos h, validate_ok h.1 h.2.1 h.2.2]
    · rw [if_neg h, validate_bad h]

/-- C31 violated: with `d` and the scale fixed and all data equal to the scale, the loop that looks for a bracket of `c` never
ends. -/
theorem mle_diverges (hn : xs ≠ []) (hs : 0 < s) (hd : 0 < d) (heq : ∀ x ∈ xs, x = s) (hε : 0 < ε) (fuel : ℕ) :
    mle findroot findrootB findroot2 findroot3 (fin ε) fuel (xs.map fin) .none (.fixed (fin d)) (.fixed (fin s)) = .error .diverges := by
  have hx : ∀ x ∈ xs, 0 < x := fun x hm => by rw [heq x hm]; exact hs
  have hl := length_pos hn
  have hE : ∀ c, E1 xs c d s = 1 / c := fun c => by
    have h1 : T xs c s = 0 := by
      rw [T, sampleMean_congr (ψ := fun _ => 0) fun x hm => by rw [heq x hm, div_self hs.ne']; simp, sampleMean_const hn]
    have h2 : sampleMean (xs.map Real.log) = Real.log s := by
      rw [sampleMean_congr (ψ := fun _ => Real.log s) fun x hm => by rw [heq x hm], sampleMean_const hn]
    rw [E1, h1, h2]; ring
  have hv : ∀ c, 0 < c → cEq (fin c) (xs.map fin) (fin d) (fin s) = .ok (fin (xs.length * (1 / c))) := fun c hc => by
    rw [cEq_eval hn hc.ne' hs hx, hE]
  have h1 : ∀ n (a : Num) b, 0 < b → loop (σ := Num × Num × Num) (fun st => pure (0 < st.2.2))
      (fun st => do
        let b := st.2.1 * 4
        return (st.2.1, b, ← cEq b (xs.map fin) (fin d) (fin s))) n (a, fin b, fin (xs.length * (1 / b))) = .error .diverges := by
    intro n
    induction n with
    | zero => intros; rfl
    | succ n ih =>
      intro a b hb
      have h2 : (0:Num) < fin (xs.length * (1 / b)) := by rw [zero_def, fin_lt]; positivity
      have h3 : fin b * 4 = fin (b * 4) := by rw [ofNat_def, fin_mul]
      have := ih (fin b) (b * 4) (by linarith)
      simp only [pure_eq_ok] at this
      simp only [loop, pure_eq_ok, ok_bind, h2, if_true, h3, hv (b * 4) (by linarith)]
      exact this
  have h2 : findCBracket (fin ε) fuel (xs.map fin) (fin d) (fin s) = .error .diverges := by
    simp only [findCBracket, bracket, hv ε hε, ok_bind]
    rw [h1 fuel 0 ε hε]; rfl
  simp only [mle, zero_def, bounds hx, ok_bind, Param.start, one_def, validate_ok one_pos hd hs, h2]
  rfl

/-- C31 violated: with `c` and `d` fixed and data as small as the working precision, the bracket starts at 0, where the
equation to be solved divides by zero. -/
theorem scaleBracket_zero (hn : xs ≠ []) (hx : ∀ x ∈ xs, 0 < x) (hε : 0 < ε) (hd : 0 < d)
    (hsmall : ∀ x ∈ xs, d * (x / ε) ^ c ≤ 1) : findScaleBracket (fin ε) (fuel + 1) (xs.map fin) (fin c) (fin d) = .ok (0, fin ε) ∧
    scaleEqCD 0 (xs.map fin) (fin c) (fin d) = .error .zeroDivision := by
  constructor
  · have h1 : 0 ≤ E3 xs c d ε := by
      have h2 : R xs c ε ≤ sampleMean (xs.map fun _ => 1 / (d + 1)) := by
        refine sampleMean_le fun x hm => ?_
        have h4 : d * q c ε x ≤ 1 := hsmall x hm
        have h5 := qx_pos (c := c) hε (hx x hm)
        rw [r, div_le_div_iff₀ (by positivity) (by positivity)]; linarith
      rw [sampleMean_const hn] at h2
      have := mul_le_mul_of_nonneg_left h2 (show 0 ≤ d + 1 by linarith)
      rw [mul_one_div_cancel (by positivity)] at this
      rw [E3]; linarith
    simp [findScaleBracket, bracket, scaleEqCD_eval hn hε hx, loop, h1.not_gt]
  · obtain ⟨a, t, rfl⟩ := List.exists_cons_of_ne_nil hn
    simp [scaleEqCD, List.mapM_cons]

/-- Non-vacuity: the data 1, 2 with `c = d = 1` and the working precision `ε = 1/10`; the data 1, 2 with `d = s = 1`; the
smallness of the data in `scaleBracket_zero`. -/
example : (∀ x ∈ [(1:ℝ), 2], 0 < x) ∧ (∀ x ∈ [(1:ℝ), 2], (1:ℝ) < 1 * (x / (1 / 10)) ^ (1:ℝ)) ∧ (∃ x ∈ [(1:ℝ), 2], x ≠ 1) ∧
    (∀ x ∈ [(1:ℝ), 2], (1 / 10 : ℝ) * ((1 + 1) * |Real.log (x / 1)|) < 1) ∧ ∀ x ∈ [(1 / 20 : ℝ)], 1 * (x / (1 / 10)) ^ (1:ℝ) ≤ 1 := by
  refine ⟨by simp, by norm_num, ⟨2, by simp, by norm_num⟩, ?_, by norm_num⟩
  have h := Real.log_le_sub_one_of_pos (show (0:ℝ) < 2 by norm_num)
  have h0 := Real.log_nonneg (show (1:ℝ) ≤ 2 by norm_num)
  simp only [List.mem_cons, List.not_mem_nil, or_false, forall_eq_or_imp, forall_eq, div_one, Real.log_one, abs_zero]
  rw [abs_of_nonneg h0]
  constructor <;> linarith

end Mpsci.burr12
