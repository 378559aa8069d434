import Verif.Lemmas.Stats.Pearsonr
import Verif.Lemmas.Dist.Normal
import Verif.Spec.Transform

/-! Properties of `stats.pearsonr`.  The two equally long samples are given as a list `d` of pairs. -/

namespace Mpsci.stats

open Classical Num Spec

variable {d : List (ℝ × ℝ)} {alt : String}

/-- The p-value is a real number in `[0, 1]`; one-sided p-values add up to 1 and the two-sided one is
twice the smaller of them. -/
theorem pearsonP_spec {r : ℝ} (hr : -1 ≤ r) (hr' : r ≤ 1) {n : ℕ} (hn : 3 ≤ n) : ∃ l g t,
    pearsonP (fin r) n "less" = .ok (fin l) ∧ pearsonP (fin r) n "greater" = .ok (fin g) ∧
    pearsonP (fin r) n "two-sided" = .ok (fin t) ∧ l + g = 1 ∧ t = 2 * min l g ∧
    0 ≤ l ∧ l ≤ 1 ∧ 0 ≤ g ∧ g ≤ 1 ∧ 0 ≤ t ∧ t ≤ 1 := by
  have hn' : (3:ℝ) ≤ n := by exact_mod_cast hn
  set a : ℝ := (n : ℝ) / 2 - 1 with ha
  have ha0 : 0 < a := by rw [ha]; linarith
  have hB := betaFn_pos ha0 ha0
  set I : ℝ → ℝ := fun u => betaInt a a 0 u / betaFn a a with hI
  have ev : ∀ u : ℝ, 0 ≤ u → u ≤ 1 → (do (← mp.betainc (fin a) (fin a) 0 (fin u)) /.
      (← mp.beta (fin a) (fin a)) : M Num) = .ok (fin (I u)) := by
    intro u h0 h1
    rw [zero_def, mp.betainc_fin ha0 ha0 le_rfl zero_le_one h0 h1, mp.beta_fin ha0 ha0, ok_bind,
      ok_bind, fin_div _ hB.ne']
  have ev2 : ∀ u : ℝ, 0 ≤ u → u ≤ 1 → (do 2 * (← mp.betainc (fin a) (fin a) 0 (fin u)) /.
      (← mp.beta (fin a) (fin a)) : M Num) = .ok (fin (2 * I u)) := by
    intro u h0 h1
    rw [zero_def, mp.betainc_fin ha0 ha0 le_rfl zero_le_one h0 h1, mp.beta_fin ha0 ha0, ok_bind,
      ok_bind, ofNat_def, fin_mul, fin_div _ hB.ne', hI, mul_div_assoc]
  have hadd : ∀ u, 0 ≤ u → u ≤ 1 → I u + I (1 - u) = 1 := by
    intro u h0 h1
    rw [hI, ← add_div, betaInt_compl ha0 ha0 h0 h1, div_self hB.ne']
  have hnn : ∀ u, 0 ≤ u → u ≤ 1 → 0 ≤ I u := fun u h0 h1 =>
    div_nonneg (betaInt_nonneg le_rfl h0 h1) hB.le
  have hmono : ∀ u v, 0 ≤ u → u ≤ v → v ≤ 1 → I u ≤ I v := fun u v h0 h1 h2 =>
    div_le_div_of_nonneg_right (betaInt_mono ha0 ha0 h0 h1 h2) hB.le
  have habs : |r| ≤ 1 := abs_le.2 ⟨hr, hr'⟩
  have u1 : (0:ℝ) ≤ 1 / 2 * (1 + r) := by linarith
  have u2 : 1 / 2 * (1 + r) ≤ 1 := by linarith
  have v1 : (0:ℝ) ≤ 1 / 2 * (1 - r) := by linarith
  have v2 : 1 / 2 * (1 - r) ≤ 1 := by linarith
  have w1 : (0:ℝ) ≤ 1 / 2 * (1 - |r|) := by linarith
  have w2 : 1 / 2 * (1 - |r|) ≤ 1 := by linarith [abs_nonneg r]
  have hsum : I (1 / 2 * (1 + r)) + I (1 / 2 * (1 - r)) = 1 := by
    have := hadd _ u1 u2
    rwa [show 1 - 1 / 2 * (1 + r) = 1 / 2 * (1 - r) by ring] at this
  have ht : 2 * I (1 / 2 * (1 - |r|)) =
      2 * min (I (1 / 2 * (1 + r))) (I (1 / 2 * (1 - r))) := by
    rcases le_total 0 r with h | h
    · rw [abs_of_nonneg h, min_eq_right (hmono _ _ v1 (by linarith) u2)]
    · rw [abs_of_nonpos h, sub_neg_eq_add, min_eq_left (hmono _ _ u1 (by linarith) v2)]
  refine ⟨_, _, _, ?_, ?_, ?_, hsum, ht, hnn _ u1 u2, ?_, hnn _ v1 v2, ?_, ?_, ?_⟩
  · simp only [pearsonP, ← ha, one_def, fin_add, fin_mul]; exact ev _ u1 u2
  · simp only [pearsonP, ← ha, one_def, fin_sub, fin_mul]; exact ev _ v1 v2
  · simp only [pearsonP, ← ha, one_def, abs_fin, fin_sub, fin_mul]; exact ev2 _ w1 w2
  · linarith [hnn _ v1 v2]
  · linarith [hnn _ u1 u2]
  · exact mul_nonneg zero_le_two (hnn _ w1 w2)
  · rw [ht]
    have := min_le_left (I (1 / 2 * (1 + r))) (I (1 / 2 * (1 - r)))
    have := min_le_right (I (1 / 2 * (1 + r))) (I (1 / 2 * (1 - r)))
    linarith

theorem pOf_ok {r : ℝ} (hr : -1 ≤ r) (hr' : r ≤ 1) {n : ℕ} (hn : 2 ≤ n) (ha : altOk alt) :
    ∃ p, pOf r n alt = .ok (fin p) ∧ 0 ≤ p ∧ p ≤ 1 := by
  by_cases h : n = 2
  · exact ⟨1, by simp [pOf, h], zero_le_one, le_rfl⟩
  · obtain ⟨l, g, t, e1, e2, e3, -, -, h1, h2, h3, h4, h5, h6⟩ :=
      pearsonP_spec hr hr' (n := n) (by omega)
    rcases ha with rfl | rfl | rfl
    · exact ⟨t, by simp [pOf, h, e3], h5, h6⟩
    · exact ⟨l, by simp [pOf, h, e1], h1, h2⟩
    · exact ⟨g, by simp [pOf, h, e2], h3, h4⟩

theorem two_le_length (hx : Varies (d.map Prod.fst)) : 2 ≤ d.length := by
  by_contra h
  obtain ⟨a, ha, b, hb, hab⟩ := hx
  match d, h with
  | [], _ => simp at ha
  | [q], _ => simp at ha hb; exact hab (ha.trans hb.symm)
  | _ :: _ :: _, h => simp at h

theorem corr_mem (hx : Varies (d.map Prod.fst)) (hy : Varies (d.map Prod.snd)) :
    -1 ≤ corr d ∧ corr d ≤ 1 := by
  have := (corr_sq_le hx hy).1
  exact abs_le.1 ((sq_le_one_iff_abs_le_one _).1 this)

/-- C25: for two samples of equal length, neither of them constant, `pearsonr` returns the
correlation coefficient `sum((x-mx)*(y-my))/sqrt(sum((x-mx)**2)*sum((y-my)**2))`, which lies in
`[-1, 1]`, and a p-value in `[0, 1]`. -/
theorem pearsonr_value (hx : Varies (d.map Prod.fst)) (hy : Varies (d.map Prod.snd))
    (ha : alt ∈ ["two-sided", "less", "greater"]) :
    ∃ p, pearsonr (nums (d.map Prod.fst)) (nums (d.map Prod.snd)) alt =
      .ok (fin (corr d), fin p) ∧ -1 ≤ corr d ∧ corr d ≤ 1 ∧ 0 ≤ p ∧ p ≤ 1 := by
  have ha' : altOk alt := by simpa [altOk] using ha
  obtain ⟨h1, h2⟩ := corr_mem hx hy
  obtain ⟨p, e, h3, h4⟩ := pOf_ok h1 h2 (two_le_length hx) ha'
  exact ⟨p, by rw [pearsonr_eval hx hy ha', e]; rfl, h1, h2, h3, h4⟩

theorem swap_fst (d : List (ℝ × ℝ)) : (d.map Prod.swap).map Prod.fst = d.map Prod.snd := by
  simp [Function.comp_def]
theorem swap_snd (d : List (ℝ × ℝ)) : (d.map Prod.swap).map Prod.snd = d.map Prod.fst := by
  simp [Function.comp_def]

/-- C25: `pearsonr(y, x)` is `pearsonr(x, y)`. -/
theorem pearsonr_symm (hx : Varies (d.map Prod.fst)) (hy : Varies (d.map Prod.snd))
    (ha : alt ∈ ["two-sided", "less", "greater"]) :
    pearsonr (nums (d.map Prod.snd)) (nums (d.map Prod.fst)) alt =
      pearsonr (nums (d.map Prod.fst)) (nums (d.map Prod.snd)) alt := by
  have ha' : altOk alt := by simpa [altOk] using ha
  have := pearsonr_eval (d := d.map Prod.swap) (alt := alt) (by rw [swap_fst]; exact hy)
    (by rw [swap_snd]; exact hx) ha'
  rw [swap_fst, swap_snd, corr_swap, List.length_map] at this
  rw [this, pearsonr_eval hx hy ha']

theorem varies_affine {x : List ℝ} (h : Varies x) {a : ℝ} (ha : a ≠ 0) (b : ℝ) :
    Varies (x.map fun t => a * t + b) := by
  obtain ⟨u, hu, v, hv, huv⟩ := h
  refine ⟨_, List.mem_map.2 ⟨u, hu, rfl⟩, _, List.mem_map.2 ⟨v, hv, rfl⟩, ?_⟩
  intro h; exact huv (mul_left_cancel₀ ha (by linarith))

/-- C25: an increasing affine change of the first sample changes neither `r` nor the p-value, a
decreasing one negates `r`. -/
theorem pearsonr_affine (hx : Varies (d.map Prod.fst)) (hy : Varies (d.map Prod.snd))
    (ha : alt ∈ ["two-sided", "less", "greater"]) {a : ℝ} (h0 : a ≠ 0) (b : ℝ) :
    ∃ r p p', pearsonr (nums (d.map Prod.fst)) (nums (d.map Prod.snd)) alt = .ok (fin r, fin p) ∧
      pearsonr (nums ((d.map Prod.fst).map fun t => a * t + b)) (nums (d.map Prod.snd)) alt =
        .ok (fin (if 0 < a then r else -r), fin p') ∧
      (0 < a ∨ alt = "two-sided" → p' = p) := by
  have ha' : altOk alt := by simpa [altOk] using ha
  have e1 : (d.map fun q => (a * q.1 + b, q.2)).map Prod.fst =
      (d.map Prod.fst).map fun t => a * t + b := by simp [Function.comp_def]
  have e2 : (d.map fun q => (a * q.1 + b, q.2)).map Prod.snd = d.map Prod.snd := by
    simp [Function.comp_def]
  have hd : d ≠ [] := by rintro rfl; obtain ⟨_, h, _⟩ := hx; simp at h
  have hx' : Varies ((d.map fun q => (a * q.1 + b, q.2)).map Prod.fst) := by
    rw [e1]; exact varies_affine hx h0 b
  have hy' : Varies ((d.map fun q => (a * q.1 + b, q.2)).map Prod.snd) := by rw [e2]; exact hy
  obtain ⟨h1, h2⟩ := corr_mem hx hy
  obtain ⟨h1', h2'⟩ := corr_mem hx' hy'
  obtain ⟨p, ep, -⟩ := pOf_ok h1 h2 (two_le_length hx) ha'
  obtain ⟨p', ep', -⟩ := pOf_ok h1' h2' (two_le_length hx') ha'
  have ev := pearsonr_eval hx' hy' ha'
  rw [ep', e1, e2] at ev
  have ec := corr_affine_fst hd h0 b
  have ec' : corr (d.map fun q => (a * q.1 + b, q.2)) = if 0 < a then corr d else -corr d := by
    rw [ec]
    split_ifs with h
    · rw [abs_of_pos h, div_self h0, one_mul]
    · rw [abs_of_neg (lt_of_le_of_ne (not_lt.1 h) h0), div_neg, div_self h0, neg_one_mul]
  refine ⟨corr d, p, p', by rw [pearsonr_eval hx hy ha', ep]; rfl, by rw [ev, ec']; rfl, ?_⟩
  intro h
  rw [ec', List.length_map] at ep'
  have key : pOf (if 0 < a then corr d else -corr d) d.length alt = pOf (corr d) d.length alt := by
    split_ifs with hp
    · rfl
    · have h3 := h.resolve_left hp
      simp [pOf, pearsonP, h3]
  rw [key, ep] at ep'
  have := Except.ok.inj ep'
  simpa using this.symm

/-- C25: `r` is 1 or -1 exactly when the second sample is a nonconstant affine function of the
first; then `r` is the sign of the slope. -/
theorem pearsonr_extreme (hx : Varies (d.map Prod.fst)) (hy : Varies (d.map Prod.snd))
    (ha : alt ∈ ["two-sided", "less", "greater"]) : ∃ r p,
    pearsonr (nums (d.map Prod.fst)) (nums (d.map Prod.snd)) alt = .ok (fin r, fin p) ∧
    (r = 1 ∨ r = -1 ↔ ∃ a b, a ≠ 0 ∧ ∀ q ∈ d, q.2 = a * q.1 + b) ∧
    ∀ a b, (∀ q ∈ d, q.2 = a * q.1 + b) → (0 < a → r = 1) ∧ (a < 0 → r = -1) := by
  obtain ⟨p, e, -⟩ := pearsonr_value hx hy ha
  have key : ∀ a b, (∀ q ∈ d, q.2 = a * q.1 + b) → (0 < a → corr d = 1) ∧ (a < 0 → corr d = -1) := by
    intro a b h
    constructor
    · intro h0; rw [corr_of_affine hx h0.ne' h, abs_of_pos h0, div_self h0.ne']
    · intro h0; rw [corr_of_affine hx h0.ne h, abs_of_neg h0, div_neg, div_self h0.ne]
  refine ⟨_, p, e, ?_, key⟩
  constructor
  · intro h
    exact (corr_sq_le hx hy).2 (by rcases h with h | h <;> rw [h] <;> norm_num)
  · rintro ⟨a, b, h0, h⟩
    rcases lt_or_gt_of_ne h0 with h1 | h1
    · exact Or.inr ((key a b h).2 h1)
    · exact Or.inl ((key a b h).1 h1)

/-- C25: constant (or too short) samples of equal length give nan. -/
theorem pearsonr_nan {x y : List ℝ} (hl : x.length = y.length) (h : ¬ Varies x ∨ ¬ Varies y)
    (ha : alt ∈ ["two-sided", "less", "greater"]) :
    pearsonr (nums x) (nums y) alt = .ok (nan, nan) := by
  have h1 : ¬ (alt ≠ "two-sided" ∧ alt ≠ "less" ∧ alt ≠ "greater") := by
    rintro ⟨h, h', h''⟩; simp at ha; rcases ha with e | e | e <;> contradiction
  have h2 : ¬ ((nums x).length ≠ (nums y).length) := by simp [nums, hl]
  have h3 : allSame (nums x) ∨ allSame (nums y) := by rw [allSame_nums, allSame_nums]; exact h
  simp only [pearsonr, h1, if_false, h2, h3, if_true, pure_eq_ok, ok_bind]

/-- C25: samples of different length, or an unknown alternative, raise ValueError. -/
theorem pearsonr_raises (x y : List Num)
    (h : x.length ≠ y.length ∨ alt ∉ ["two-sided", "less", "greater"]) :
    pearsonr x y alt = .error .valueError := by
  by_cases h1 : alt ≠ "two-sided" ∧ alt ≠ "less" ∧ alt ≠ "greater"
  · simp [pearsonr, h1.1, h1.2.1, h1.2.2]
  · have h2 : x.length ≠ y.length := by
      refine h.resolve_right fun hc => h1 ?_
      simpa using hc
    simp only [pearsonr, if_neg h1, if_pos h2]; rfl

/-- C49: for at least three pairs the p-values for the alternatives 'less' and 'greater' add up to 1,
and the two-sided p-value is twice the smaller of the two. -/
theorem pearsonr_pvalues (hx : Varies (d.map Prod.fst)) (hy : Varies (d.map Prod.snd))
    (hn : 3 ≤ d.length) : ∃ r l g t,
    pearsonr (nums (d.map Prod.fst)) (nums (d.map Prod.snd)) "less" = .ok (fin r, fin l) ∧
    pearsonr (nums (d.map Prod.fst)) (nums (d.map Prod.snd)) "greater" = .ok (fin r, fin g) ∧
    pearsonr (nums (d.map Prod.fst)) (nums (d.map Prod.snd)) "two-sided" = .ok (fin r, fin t) ∧
    l + g = 1 ∧ t = 2 * min l g := by
  obtain ⟨h1, h2⟩ := corr_mem hx hy
  obtain ⟨l, g, t, e1, e2, e3, h3, h4, -⟩ := pearsonP_spec h1 h2 hn
  have hne : d.length ≠ 2 := by omega
  refine ⟨corr d, l, g, t, ?_, ?_, ?_, h3, h4⟩
  · rw [pearsonr_eval hx hy (by simp [altOk]), pOf, if_neg hne, e1]; rfl
  · rw [pearsonr_eval hx hy (by simp [altOk]), pOf, if_neg hne, e2]; rfl
  · rw [pearsonr_eval hx hy (by simp [altOk]), pOf, if_neg hne, e3]; rfl

/-- C49: with exactly two pairs all three p-values are 1, so there the one-sided ones add up to 2. -/
theorem pearsonr_two (hx : Varies (d.map Prod.fst)) (hy : Varies (d.map Prod.snd))
    (hn : d.length = 2) (ha : alt ∈ ["two-sided", "less", "greater"]) : ∃ r,
    pearsonr (nums (d.map Prod.fst)) (nums (d.map Prod.snd)) alt = .ok (fin r, fin 1) := by
  have ha' : altOk alt := by simpa [altOk] using ha
  exact ⟨_, by rw [pearsonr_eval hx hy ha', pOf, if_pos hn]; rfl⟩

/-- Non-vacuity: `x = [1, 2, 3]`, `y = [1, 3, 2]` has `r = 1/2`. -/
example : Varies ([(1, 1), (2, 3), (3, 2)].map Prod.fst : List ℝ) ∧
    Varies ([(1, 1), (2, 3), (3, 2)].map Prod.snd : List ℝ) ∧
    corr [(1, 1), (2, 3), (3, 2)] = 1 / 2 := by
  refine ⟨⟨1, by simp, 2, by simp, by norm_num⟩, ⟨1, by simp, 3, by simp, by norm_num⟩, ?_⟩
  have h1 : sxy [(1, 1), (2, 3), (3, 2)] = 1 := by norm_num [sxy, average]
  have h2 : sumSq (average [1, 2, 3]) [1, 2, 3] = 2 := by norm_num [sumSq, average]
  have h3 : sumSq (average [1, 3, 2]) [1, 3, 2] = 2 := by norm_num [sumSq, average]
  simp only [corr, h1, List.map_cons, List.map_nil, h2, h3]
  rw [Real.sqrt_mul_self (by norm_num)]

/-! ### The confidence interval -/

section Ci

variable {r n a : ℝ}

theorem tanh_lt_tanh {x y : ℝ} (h : x < y) : Real.tanh x < Real.tanh y := by
  have := (Real.artanh_lt_artanh_iff (x := Real.tanh x) (y := Real.tanh y) ⟨Real.neg_one_lt_tanh x, Real.tanh_lt_one x⟩
    ⟨Real.neg_one_lt_tanh y, Real.tanh_lt_one y⟩).1
  exact this (by rwa [Real.artanh_tanh, Real.artanh_tanh])

theorem ci_sd (hn : 3 < n) : (do mp.sqrt (← 1 /. (fin n - 3)) : M Num) = .ok (fin (1 / Real.sqrt (n - 3))) := by
  have h : (0:ℝ) < n - 3 := by linarith
  rw [one_def, ofNat_def, fin_sub, fin_div _ h.ne', ok_bind, mp.sqrt_nonneg (by positivity), Real.sqrt_div zero_le_one, Real.sqrt_one]

theorem atanh_eval (h1 : -1 < r) (h2 : r < 1) : mp.atanh (fin r) = .ok (fin (Real.artanh r)) := by
  simp only [mp.atanh]; rw [if_neg h2.ne, if_neg h1.ne', if_pos ⟨h1, h2⟩]

theorem atLevel_of (h1 : -1 < r) (h2 : r < 1) (hn : 3 < n) {h p : ℝ} (hp : Phi h = p) :
    AtLevel r n (Real.tanh (Real.artanh r + h * (1 / Real.sqrt (n - 3)))) p := by
  have hs : 0 < Real.sqrt (n - 3) := Real.sqrt_pos.2 (by linarith)
  refine ⟨_, _, Real.tanh_artanh ⟨h1, h2⟩, rfl, ?_⟩
  rw [← hp]; congr 1; field_simp; ring

/-- The ends of the interval, as functions of the probability. -/
noncomputable def ciEnd (r n p : ℝ) : ℝ := Real.tanh (Real.artanh r + PhiInv p * (1 / Real.sqrt (n - 3)))

theorem ciEnd_atLevel (h1 : -1 < r) (h2 : r < 1) (hn : 3 < n) {p : ℝ} (h0 : 0 < p) (hp : p < 1) : AtLevel r n (ciEnd r n p) p :=
  atLevel_of h1 h2 hn (Phi_PhiInv h0 hp)

theorem ciEnd_lt (hn : 3 < n) {p q : ℝ} (h0 : 0 < p) (hpq : p < q) (hq : q < 1) : ciEnd r n p < ciEnd r n q := by
  have hs : 0 < 1 / Real.sqrt (n - 3) := one_div_pos.2 (Real.sqrt_pos.2 (by linarith))
  refine tanh_lt_tanh ?_
  have : PhiInv p < PhiInv q := by
    by_contra hc
    have := Phi_strictMono.monotone (not_lt.1 hc)
    rw [Phi_PhiInv h0 (hpq.trans hq), Phi_PhiInv (h0.trans hpq) hq] at this; linarith
  have := mul_lt_mul_of_pos_right this hs
  linarith

theorem ciEnd_half (h1 : -1 < r) (h2 : r < 1) : ciEnd r n (1 / 2) = r := by
  have : PhiInv (1 / 2) = 0 := by rw [← Phi_zero, PhiInv_Phi]
  rw [ciEnd, this, zero_mul, add_zero, Real.tanh_artanh ⟨h1, h2⟩]

theorem ci_invcdf {p : ℝ} (h0 : 0 < p) (h1 : p < 1) : normal.invcdf (1 - fin p) = .ok (fin (-PhiInv p)) := by
  have := normal.std_invcdf (q := 1 - p) (by linarith) (by linarith)
  rw [PhiInv_compl h0 h1] at this
  exact this

theorem ci_eval (h1 : -1 < r) (h2 : r < 1) (hn : 3 < n) {p : ℝ} (hp : 0 < p) (hp' : p < 1) :
    pearsonrCi (fin r) (fin n) (fin (2 * p)) = .ok (fin (ciEnd r n p), fin (ciEnd r n (1 - p))) ∧
    pearsonrCi (fin r) (fin n) (fin p) "less" = .ok (-1, fin (ciEnd r n (1 - p))) ∧
    pearsonrCi (fin r) (fin n) (fin p) "greater" = .ok (fin (ciEnd r n p), 1) := by
  have e := ci_invcdf hp hp'
  have hsd := ci_sd hn
  have h2p : (fin (2 * p) /. 2) = .ok (fin p) := by
    rw [ofNat_def, fin_div _ (two_ne_zero (α := ℝ)), mul_div_cancel_left₀ _ (two_ne_zero (α := ℝ))]
  have l1 : ¬ ("less" : String) = "two-sided" := by decide
  have l2 : ¬ ("greater" : String) = "two-sided" := by decide
  have l3 : ¬ ("greater" : String) = "less" := by decide
  have e1 : Real.artanh r - -PhiInv p * (1 / Real.sqrt (n - 3)) = Real.artanh r + PhiInv p * (1 / Real.sqrt (n - 3)) := by ring
  refine ⟨?_, ?_, ?_⟩
  · simp only [pearsonrCi, ne_eq, not_true_eq_false, false_and, if_false, if_true, atanh_eval h1 h2, ok_bind]
    rw [← bind_assoc, hsd, h2p]
    simp only [ok_bind, e, fin_mul, fin_sub, fin_add, mp.tanh_fin, pure_eq_ok, e1, ciEnd, PhiInv_compl hp hp']
  · simp only [pearsonrCi, ne_eq, not_true_eq_false, false_and, and_false, if_false, if_true, atanh_eval h1 h2, ok_bind, l1]
    rw [← bind_assoc, hsd]
    simp only [ok_bind, e, fin_mul, fin_add, mp.tanh_fin, pure_eq_ok, ciEnd, PhiInv_compl hp hp']
  · simp only [pearsonrCi, ne_eq, not_true_eq_false, and_false, if_false, atanh_eval h1 h2, ok_bind, l2, l3]
    rw [← bind_assoc, hsd]
    simp only [ok_bind, e, fin_mul, fin_sub, mp.tanh_fin, pure_eq_ok, ciEnd, e1]

/-- C55: the two-sided interval of level `1 - alpha`: on the scale of Fisher's transform its ends are the points with
probability `alpha/2` and `1 - alpha/2`.  It contains `r` and lies inside `(-1, 1)`. -/
theorem pearsonrCi_twoSided (h1 : -1 < r) (h2 : r < 1) (hn : 3 < n) (ha : 0 < a) (ha' : a < 1) :
    ∃ lo hi, pearsonrCi (fin r) (fin n) (fin a) = .ok (fin lo, fin hi) ∧ AtLevel r n lo (a / 2) ∧ AtLevel r n hi (1 - a / 2) ∧
      -1 < lo ∧ lo < r ∧ r < hi ∧ hi < 1 := by
  have e := (ci_eval h1 h2 hn (p := a / 2) (by linarith) (by linarith)).1
  rw [mul_div_cancel₀ _ (two_ne_zero (α := ℝ))] at e
  refine ⟨_, _, e, ciEnd_atLevel h1 h2 hn (by linarith) (by linarith), ciEnd_atLevel h1 h2 hn (by linarith) (by linarith),
    Real.neg_one_lt_tanh _, ?_, ?_, Real.tanh_lt_one _⟩
  · conv_rhs => rw [← ciEnd_half (n := n) h1 h2]
    exact ciEnd_lt hn (by linarith) (by linarith) (by norm_num)
  · conv_lhs => rw [← ciEnd_half (n := n) h1 h2]
    exact ciEnd_lt hn (by norm_num) (by linarith) (by linarith)

/-- C55: the one-sided intervals of level `1 - alpha` end at -1 or at 1; the other end is the point with probability `1 - alpha`
or `alpha`. -/
theorem pearsonrCi_oneSided (h1 : -1 < r) (h2 : r < 1) (hn : 3 < n) (ha : 0 < a) (ha' : a < 1) :
    ∃ lo hi, pearsonrCi (fin r) (fin n) (fin a) "less" = .ok (-1, fin hi) ∧ AtLevel r n hi (1 - a) ∧
      pearsonrCi (fin r) (fin n) (fin a) "greater" = .ok (fin lo, 1) ∧ AtLevel r n lo a ∧ -1 < lo ∧ lo < 1 ∧ -1 < hi ∧ hi < 1 ∧
      (a < 1 / 2 → lo < r ∧ r < hi) := by
  obtain ⟨-, e1, e2⟩ := ci_eval h1 h2 hn ha ha'
  refine ⟨_, _, e1, ciEnd_atLevel h1 h2 hn (by linarith) (by linarith), e2, ciEnd_atLevel h1 h2 hn ha ha',
    Real.neg_one_lt_tanh _, Real.tanh_lt_one _, Real.neg_one_lt_tanh _, Real.tanh_lt_one _, fun h => ⟨?_, ?_⟩⟩
  · conv_rhs => rw [← ciEnd_half (n := n) h1 h2]
    exact ciEnd_lt hn ha h (by norm_num)
  · conv_lhs => rw [← ciEnd_half (n := n) h1 h2]
    exact ciEnd_lt hn (by norm_num) (by linarith) (by linarith)

/-- C55: a smaller `alpha` gives a wider interval. -/
theorem pearsonrCi_nested (h1 : -1 < r) (h2 : r < 1) (hn : 3 < n) {a' : ℝ} (ha : 0 < a) (haa : a < a') (ha' : a' < 1) :
    ∃ lo hi lo' hi', pearsonrCi (fin r) (fin n) (fin a) = .ok (fin lo, fin hi) ∧
      pearsonrCi (fin r) (fin n) (fin a') = .ok (fin lo', fin hi') ∧ lo < lo' ∧ hi' < hi := by
  have e := (ci_eval h1 h2 hn (p := a / 2) (by linarith) (by linarith)).1
  have e' := (ci_eval h1 h2 hn (p := a' / 2) (by linarith) (by linarith)).1
  rw [mul_div_cancel₀ _ (two_ne_zero (α := ℝ))] at e e'
  exact ⟨_, _, _, _, e, e', ciEnd_lt hn (by linarith) (by linarith) (by linarith), ciEnd_lt hn (by linarith) (by linarith) (by linarith)⟩

/-- C55: an unknown `alternative` raises ValueError. -/
theorem pearsonrCi_rejects (r n a : Num) {alt : String} (h : alt ∉ ["two-sided", "less", "greater"]) :
    pearsonrCi r n a alt = .error .valueError := by
  simp only [List.mem_cons, List.not_mem_nil, or_false, not_or] at h
  simp [pearsonrCi, h.1, h.2.1, h.2.2]

/-- C55: three observations give a division by zero, fewer the square root of a negative number. -/
theorem pearsonrCi_few (h1 : -1 < r) (h2 : r < 1) (a : Num) {alt : String} (h : alt ∈ ["two-sided", "less", "greater"]) :
    pearsonrCi (fin r) 3 a alt = .error .zeroDivision ∧ (n < 3 → pearsonrCi (fin r) (fin n) a alt = .error .complexResult) := by
  have hg : ¬ (alt ≠ "two-sided" ∧ alt ≠ "less" ∧ alt ≠ "greater") := by
    simp only [List.mem_cons, List.not_mem_nil, or_false] at h
    rcases h with rfl | rfl | rfl <;> decide
  constructor
  · have e : (1 /. (3 - 3)) = (.error .zeroDivision : M Num) := by
      rw [one_def, ofNat_def, fin_sub, sub_self, fin_div_zero]
    simp only [pearsonrCi, if_neg hg, atanh_eval h1 h2, ok_bind, e]; rfl
  · intro hn
    have h3 : n - 3 < 0 := by linarith
    have e : (1 /. (fin n - 3)) = .ok (fin (1 / (n - 3))) := by
      rw [one_def, ofNat_def, fin_sub, fin_div _ h3.ne]
    have e2 : mp.sqrt (fin (1 / (n - 3))) = .error .complexResult := mp.sqrt_neg (one_div_neg.2 h3)
    simp only [pearsonrCi, if_neg hg, atanh_eval h1 h2, ok_bind, e, e2]; rfl

/-- C55 fails: `alpha` is not validated; for `1 < alpha < 2` the two-sided interval is returned with its ends exchanged. -/
theorem pearsonrCi_reversed (h1 : -1 < r) (h2 : r < 1) (hn : 3 < n) (ha : 1 < a) (ha' : a < 2) :
    ∃ lo hi, pearsonrCi (fin r) (fin n) (fin a) = .ok (fin lo, fin hi) ∧ hi < lo := by
  have e := (ci_eval h1 h2 hn (p := a / 2) (by linarith) (by linarith)).1
  rw [mul_div_cancel₀ _ (two_ne_zero (α := ℝ))] at e
  exact ⟨_, _, e, ciEnd_lt hn (by linarith) (by linarith) (by linarith)⟩

/-- Non-vacuity: the 50% interval for `r = 0`, `n = 12`, is symmetric and not trivial. -/
example : ∃ lo hi, pearsonrCi (fin 0) (fin 12) (fin (1 / 2)) = .ok (fin lo, fin hi) ∧ lo < 0 ∧ 0 < hi := by
  obtain ⟨lo, hi, e, -, -, -, h1, h2, -⟩ := pearsonrCi_twoSided (r := 0) (n := 12) (a := 1 / 2) (by norm_num) (by norm_num)
    (by norm_num) (by norm_num) (by norm_num)
  exact ⟨lo, hi, e, h1, h2⟩

end Ci

end Mpsci.stats
