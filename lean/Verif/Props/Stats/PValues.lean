import Verif.Model.Stats.PValues
import Verif.Props.Stats.Goftests
import Verif.Props.Stats.Anova
import Verif.Props.Dist.Chi2
import Verif.Props.Dist.F
import Verif.Lemmas.DensityDist

/-! Properties of the p-values of `stats.chisquare`, `stats.gtest` and `stats.anova_oneway`.  Observed and expected frequencies
are given as a list `d` of pairs (observed, expected). -/

namespace Mpsci.Spec

open Num MeasureTheory

/-- `p` is the probability that a value with the density `pdf` exceeds `s`.  The point 0, where a density may be infinite, does
not matter. -/
def IsUpperTail (pdf : Num → M Num) (s p : ℝ) : Prop :=
  ∃ f : ℝ → ℝ, RealFnOff {0} pdf f ∧ Integrable f ∧ ∫ t, f t = 1 ∧ p = ∫ t in Set.Ioi s, f t

end Mpsci.Spec

namespace Mpsci.stats

open Classical Num Spec Set

variable {d : List (ℝ × ℝ)} {rel : ℝ}

/-- the degrees of freedom -/
theorem df_pos {n : ℕ} (h : 2 ≤ n) : (0:ℝ) < (n:ℝ) - 1 := by
  have : (2:ℝ) ≤ n := by exact_mod_cast h
  linarith

theorem gofP_eval {o : List ℝ} (h : 2 ≤ o.length) {s : ℝ} (hs : 0 ≤ s) :
    gofP (nums o) (fin s) = .ok (fin (1 - chi2.F (o.length - 1) s)) := by
  have hk := half_pos (df_pos h)
  have hl : (nums o).length = o.length := by simp [nums]
  have hz : 0 ≤ s / 2 := by positivity
  simp only [gofP, hl, ofNat_def, fin_div _ two_ne_zero, ok_bind, mp.gammaincUpper, hk, hz, true_or, and_true, if_true,
    mp.gamma_pos hk, fin_div _ (gammaD.Gpos hk).ne', gammaD.gammaTail_eq hk hz, chi2.F, gammaD.F_nonneg_arg hz]

theorem chi2_upper {k : ℝ} (hk : 0 < k) (s : ℝ) : IsUpperTail (chi2.pdf · (fin k)) s (1 - chi2.F k s) :=
  ⟨chi2.f k, chi2.pdf_off hk fun _ => rfl, (chi2.isDist hk).integrable, (chi2.isDist hk).integral_one,
    ((chi2.isDist hk).integral_Ioi s).symm⟩

theorem chi2_p {k : ℝ} (hk : 0 < k) {s : ℝ} (hs : 0 ≤ s) :
    0 < 1 - chi2.F k s ∧ 1 - chi2.F k s ≤ 1 ∧ (1 - chi2.F k s = 1 ↔ s = 0) := by
  rcases hs.eq_or_lt with rfl | h
  · have : chi2.F k 0 = 0 := by rw [chi2.F, zero_div, gammaD.F_nonpos le_rfl]
    simp [this]
  · obtain ⟨h0, h1⟩ := chi2.F_mem hk h
    exact ⟨by linarith, by linarith, ⟨fun e => by linarith, fun e => absurd e h.ne'⟩⟩

/-- C73: `chisquare` returns its statistic `s` together with the survival function of the chi-squared distribution with
`len(observed) - 1` degrees of freedom at `s`, the probability that such a value exceeds `s`; the p-value lies in `(0, 1]` and is
1 exactly when observed equals expected. -/
theorem chisquare_pvalue (hl : 2 ≤ d.length) (he : ∀ q ∈ d, 0 < q.2)
    (ht : almosteq (d.map Prod.fst).sum (d.map Prod.snd).sum rel) :
    ∃ s p, chisquare (nums (d.map Prod.fst)) (nums (d.map Prod.snd)) rel = .ok (fin s, fin p) ∧
      s = (d.map fun q => (q.1 - q.2) ^ 2 / q.2).sum ∧
      chi2.sf (fin s) (fin (d.length - 1)) = .ok (fin p) ∧
      IsUpperTail (chi2.pdf · (fin (d.length - 1))) s p ∧
      0 < p ∧ p ≤ 1 ∧ (p = 1 ↔ d.map Prod.fst = d.map Prod.snd) := by
  obtain ⟨s, h1, h2, h3, h4⟩ := chisquare_spec he ht
  have hk := df_pos hl
  have h := chi2_p hk h3
  refine ⟨s, _, ?_, h2, chi2.sf_eval hk s, chi2_upper hk s, h.1, h.2.1, h.2.2.trans h4⟩
  rw [chisquare, h1, ok_bind, gofP_eval (by simpa using hl) h3, List.length_map]
  rfl

/-- C73: `gtest`, for equal totals: as for `chisquare`. -/
theorem gtest_pvalue (hl : 2 ≤ d.length) (hd : ∀ q ∈ d, 0 ≤ q.1 ∧ 0 < q.2)
    (ht : (d.map Prod.fst).sum = (d.map Prod.snd).sum) :
    ∃ s p, gtest (nums (d.map Prod.fst)) (nums (d.map Prod.snd)) rel = .ok (fin s, fin p) ∧
      s = (d.map fun q => 2 * (q.1 * Real.log (q.1 / q.2))).sum ∧
      chi2.sf (fin s) (fin (d.length - 1)) = .ok (fin p) ∧
      IsUpperTail (chi2.pdf · (fin (d.length - 1))) s p ∧
      0 < p ∧ p ≤ 1 ∧ (p = 1 ↔ d.map Prod.fst = d.map Prod.snd) := by
  obtain ⟨s, h1, h2, h3, h4⟩ := gtest_spec (rel := rel) hd ht
  have hk := df_pos hl
  have h := chi2_p hk h3
  refine ⟨s, _, ?_, h2, chi2.sf_eval hk s, chi2_upper hk s, h.1, h.2.1, h.2.2.trans h4⟩
  rw [gtest, h1, ok_bind, gofP_eval (by simpa using hl) h3, List.length_map]
  rfl

/-- C73: for two tables with equally many cells, the one with the larger statistic has the smaller p-value.  Stated for
`chisquare`. -/
theorem chisquare_antitone {d' : List (ℝ × ℝ)} (hl : 2 ≤ d.length) (hl' : d'.length = d.length) (he : ∀ q ∈ d, 0 < q.2)
    (he' : ∀ q ∈ d', 0 < q.2) (ht : almosteq (d.map Prod.fst).sum (d.map Prod.snd).sum rel)
    (ht' : almosteq (d'.map Prod.fst).sum (d'.map Prod.snd).sum rel) :
    ∃ s p s' p', chisquare (nums (d.map Prod.fst)) (nums (d.map Prod.snd)) rel = .ok (fin s, fin p) ∧
      chisquare (nums (d'.map Prod.fst)) (nums (d'.map Prod.snd)) rel = .ok (fin s', fin p') ∧ (s < s' ↔ p' < p) := by
  obtain ⟨s, h1, -, h3, -⟩ := chisquare_spec he ht
  obtain ⟨s', h1', -, h3', -⟩ := chisquare_spec he' ht'
  have hk := df_pos hl
  refine ⟨s, 1 - chi2.F (d.length - 1) s, s', 1 - chi2.F (d.length - 1) s', ?_, ?_, ?_⟩
  · rw [chisquare, h1, ok_bind, gofP_eval (by simpa using hl) h3, List.length_map]; rfl
  · rw [chisquare, h1', ok_bind, gofP_eval (by simpa [hl'] using hl) h3', List.length_map, hl']; rfl
  · have key : ∀ a b : ℝ, 0 ≤ a → a < b → chi2.F (d.length - 1) a < chi2.F (d.length - 1) b := by
      intro a b ha hab
      rcases ha.eq_or_lt with rfl | ha
      · rw [show chi2.F (d.length - 1) 0 = 0 by rw [chi2.F, zero_div, gammaD.F_nonpos le_rfl]]
        exact (chi2.F_mem hk hab).1
      · exact chi2.F_strictMono hk ha (ha.trans hab) hab
    constructor
    · intro h; have := key s s' h3 h; linarith
    · intro h
      by_contra hn
      rcases (not_lt.1 hn).eq_or_lt with e | e
      · rw [e] at h; exact lt_irrefl _ h
      · have := key s' s h3' e; linarith

/-- C73: totals that differ by more than the tolerance raise ValueError, in both functions. -/
theorem gof_pvalue_raises {o e : List ℝ} (h : rel * max |o.sum| |e.sum| < |o.sum - e.sum|) (hr : 0 ≤ rel) :
    chisquare (nums o) (nums e) rel = .error .valueError ∧ gtest (nums o) (nums e) rel = .error .valueError := by
  obtain ⟨h1, h2⟩ := gof_raises h hr
  exact ⟨by rw [chisquare, h1]; rfl, by rw [gtest, h2]; rfl⟩

/-- C73, a failure: totals that agree only up to the tolerance.  With observed `[1, 1]` and expected `[1+t, 1+t]`, `t > 0` within
the tolerance, the statistic of `gtest` is negative, and the p-value is computed from an incomplete gamma function at a negative
argument, a complex number. -/
theorem gtest_complex {t : ℝ} (h0 : 0 < t) (hr : t ≤ rel) :
    ∃ s < 0, gtestStat (nums [1, 1]) (nums [1 + t, 1 + t]) rel = .ok (fin s) ∧
      gtest (nums [1, 1]) (nums [1 + t, 1 + t]) rel = .error .complexResult := by
  have hp : 0 < 1 + t := by linarith
  have ha : almosteq (totals [(1, 1 + t), (1, 1 + t)]).1 (totals [(1, 1 + t), (1, 1 + t)]).2 rel := by
    right
    simp only [totals, List.map_cons, List.map_nil, List.sum_cons, List.sum_nil, add_zero]
    have e1 : |(1:ℝ) + 1| = 2 := by norm_num
    have e2 : |1 + t + (1 + t)| = 2 + 2 * t := by rw [abs_of_pos (by linarith)]; ring
    have e3 : |(1:ℝ) + 1 - (1 + t + (1 + t))| = 2 * t := by
      rw [abs_sub_comm, abs_of_pos (by linarith)]; ring
    rw [e1, e2, e3, if_pos (by linarith), div_le_iff₀ (by linarith)]
    nlinarith
  have h := gtest_eval (d := [(1, 1 + t), (1, 1 + t)]) (rel := rel) (by
    intro q hq
    simp only [List.mem_cons, List.not_mem_nil, or_false, or_self] at hq
    subst hq
    exact ⟨zero_le_one, hp⟩) ha
  simp only [List.map_cons, List.map_nil, List.sum_cons, List.sum_nil, add_zero, one_mul] at h
  have hlog : Real.log (1 / (1 + t)) < 0 := Real.log_neg (by positivity) (by rw [div_lt_one hp]; linarith)
  have hs : 2 * Real.log (1 / (1 + t)) + 2 * Real.log (1 / (1 + t)) < 0 := by linarith
  refine ⟨_, hs, h, ?_⟩
  have hn : ¬ ∃ n : ℕ, (1:ℝ) / 2 = n + 1 := by
    rintro ⟨n, hn⟩
    have : (0:ℝ) ≤ n := Nat.cast_nonneg n
    linarith
  have h2 : ¬ 0 ≤ (2 * Real.log (1 / (1 + t)) + 2 * Real.log (1 / (1 + t))) / 2 := by linarith
  have hlen : ((nums [1, 1]).length : ℝ) - 1 = 1 := by norm_num [nums]
  have hhalf : (0:ℝ) < 1 / 2 := by norm_num
  rw [gtest, h, ok_bind, gofP]
  simp only [hlen, ofNat_def, fin_div _ two_ne_zero, ok_bind, mp.gammaincUpper, h2, hn, or_self, and_false, if_false, hhalf,
    if_true, error_bind]

/-- C73, a failure: lists of different lengths are accepted.  `chisquare([a, b], [a + b])` compares `a` with `a + b`, ignores `b`,
and uses one degree of freedom. -/
theorem chisquare_lengths {a b : ℝ} (h : 0 < a + b) :
    ∃ p, chisquare (nums [a, b]) (nums [a + b]) 0 = .ok (fin (b ^ 2 / (a + b)), fin p) ∧
      chi2.sf (fin (b ^ 2 / (a + b))) (fin 1) = .ok (fin p) := by
  have hs : 0 ≤ b ^ 2 / (a + b) := by positivity
  refine ⟨_, ?_, chi2.sf_eval one_pos _⟩
  have e : chisquareStat (nums [a, b]) (nums [a + b]) 0 = .ok (fin (b ^ 2 / (a + b))) := by
    simp [chisquareStat, checkTotals, nums, almosteq, fin_div _ h.ne']
    ring
  rw [chisquare, e, ok_bind, gofP_eval (by simp) hs]
  norm_num

/-- Non-vacuity: the hypotheses hold for observed `[10, 20]`, expected `[15, 15]`, and the p-value is below 1. -/
example : ∃ s p : ℝ, chisquare (nums [10, 20]) (nums [15, 15]) 0 = .ok (fin s, fin p) ∧ s = 10 / 3 ∧ 0 < p ∧ p < 1 := by
  obtain ⟨s, p, h1, h2, -, -, h3, h4, h5⟩ := chisquare_pvalue (d := [(10, 15), (20, 15)]) (rel := 0) (by simp) (by simp)
    (by left; norm_num)
  refine ⟨s, p, h1, by rw [h2]; norm_num, h3, lt_of_le_of_ne h4 fun e => ?_⟩
  have := h5.1 e
  norm_num at this

section anova

theorem sum_map_zero_iff {α : Type} {l : List α} {f : α → ℝ} (h : ∀ t ∈ l, 0 ≤ f t) : (l.map f).sum = 0 ↔ ∀ t ∈ l, f t = 0 := by
  induction l with
  | nil => simp
  | cons a l ih =>
    have h1 := h a (by simp)
    have h2 : 0 ≤ (l.map f).sum := List.sum_nonneg (by
      intro b hb
      obtain ⟨t, ht, rfl⟩ := List.mem_map.1 hb
      exact h t (List.mem_cons_of_mem _ ht))
    have h3 := ih fun t ht => h t (List.mem_cons_of_mem _ ht)
    simp only [List.map_cons, List.sum_cons, List.forall_mem_cons, ← h3]
    constructor
    · intro h4; constructor <;> linarith
    · rintro ⟨h4, h5⟩; rw [h4, h5, add_zero]

variable {gs : List (List ℝ)}

/-- C73: `anova_oneway` returns its statistic `F` together with the survival function at `F` of the F distribution with `k - 1` and
`n - k` degrees of freedom (`k` groups, `n` values), the probability that such a value exceeds `F`; the p-value lies in `(0, 1]`
and is 1 exactly when all group means equal the overall mean. -/
theorem anova_pvalue (hne : ∀ g ∈ gs, g ≠ []) (hk : 2 ≤ gs.length) (hw : within gs ≠ 0) :
    ∃ F p, anovaOneway (gs.map nums) = .ok (fin F, fin p) ∧
      F = (between gs / (gs.length - 1)) / (within gs / (gs.flatten.length - gs.length)) ∧
      fdist.sf (fin F) (fin (gs.length - 1)) (fin (gs.flatten.length - gs.length)) = .ok (fin p) ∧
      IsUpperTail (fdist.pdf · (fin (gs.length - 1)) (fin (gs.flatten.length - gs.length))) F p ∧
      0 < p ∧ p ≤ 1 ∧ (p = 1 ↔ ∀ g ∈ gs, average g = average gs.flatten) := by
  obtain ⟨F, h1, h2, h3, k1, k2⟩ := anova_value hne hk hw
  have e1 : ((((gs.map nums).map List.length).sum : ℕ) : ℝ) = gs.flatten.length := by
    rw [List.length_flatten, List.map_map]; congr 3; funext g; simp [nums]
  have hD := fdist.isDist k1 k2
  refine ⟨F, _, ?_, h2, fdist.sf_eval k1 k2 F, ⟨fdist.f _ _, fun x hx => fdist.pdf_off k1 k2 x fun h => hx h.1, hD.integrable,
    hD.integral_one, (hD.integral_Ioi F).symm⟩, ?_⟩
  · simp only [anovaOneway, h1, ok_bind, List.length_map, e1, fdist.sf_eval k1 k2, pure_eq_ok]
  have hb : F = 0 ↔ ∀ g ∈ gs, average g = average gs.flatten := by
    rw [h2, div_eq_zero_iff, or_iff_left (div_ne_zero hw k2.ne'), div_eq_zero_iff, or_iff_left k1.ne', between]
    have hpos : ∀ g ∈ gs, 0 ≤ (g.length : ℝ) * (average g - average gs.flatten) ^ 2 := fun g _ => by positivity
    rw [sum_map_zero_iff hpos]
    refine forall₂_congr fun g hg => ?_
    have hl : (g.length : ℝ) ≠ 0 := by simpa using hne g hg
    rw [mul_eq_zero, or_iff_right hl, pow_eq_zero_iff two_ne_zero, sub_eq_zero]
  rw [← hb]
  rcases h3.eq_or_lt with h | h
  · rw [← h]
    have : fdist.F (gs.length - 1) (gs.flatten.length - gs.length) 0 = 0 := by rw [fdist.F, zero_div, bpD.F_nonpos le_rfl]
    rw [this]; norm_num
  · obtain ⟨m0, m1⟩ := bpD.F_mem (half_pos k1) (half_pos k2) (div_pos h (div_pos k2 k1))
    change 0 < fdist.F _ _ F at m0
    change fdist.F _ _ F < 1 at m1
    exact ⟨by linarith, by linarith, ⟨fun e => by linarith, fun e => absurd e h.ne'⟩⟩

/-- C73: shifting all data, multiplying all data by a nonzero constant, reordering the groups or the values inside the groups
leave statistic and p-value unchanged. -/
theorem anova_pvalue_affine (hne : ∀ g ∈ gs, g ≠ []) (hk : 2 ≤ gs.length) (hw : within gs ≠ 0) {a : ℝ} (ha : a ≠ 0) (b : ℝ) :
    anovaOneway ((gs.map fun g => g.map fun t => a * t + b).map nums) = anovaOneway (gs.map nums) := by
  have e : ((gs.map fun g => g.map fun t => a * t + b).map nums).map List.length = (gs.map nums).map List.length := by
    simp only [List.map_map]; congr 1; funext g; simp [nums]
  simp only [anovaOneway, anova_affine hne hk hw ha b, e, List.length_map]
theorem anova_pvalue_perm {hs : List (List ℝ)} (hne : ∀ g ∈ gs, g ≠ []) (hk : 2 ≤ gs.length) (hw : within gs ≠ 0)
    (h : gs.Perm hs ∨ List.Forall₂ List.Perm gs hs) : anovaOneway (hs.map nums) = anovaOneway (gs.map nums) := by
  have e : ((hs.map nums).map List.length).sum = ((gs.map nums).map List.length).sum ∧ hs.length = gs.length := by
    rcases h with p | p
    · exact ⟨(((p.symm.map _).map _)).sum_eq, p.symm.length_eq⟩
    · refine ⟨?_, p.length_eq.symm⟩
      clear hne hk hw
      induction p with
      | nil => rfl
      | cons h _ ih =>
        simp only [List.map_cons, List.sum_cons] at ih ⊢
        rw [ih]; simp [nums, h.length_eq]
  simp only [anovaOneway, anova_perm hne hk hw h, e.1, e.2, List.length_map]

/-- C73: no groups, one group, or an empty group next to a nonempty one raise ZeroDivisionError. -/
theorem anova_pvalue_errors (g : List ℝ) (hg : g ≠ []) :
    anovaOneway [] = .error .zeroDivision ∧ anovaOneway [nums g] = .error .zeroDivision ∧
    anovaOneway [nums g, []] = .error .zeroDivision := by
  obtain ⟨h1, h2, h3⟩ := anova_errors g hg
  simp only [anovaOneway, h1, h2, h3, error_bind, and_self]

/-- Non-vacuity: groups `[1, 2], [3, 6]`. -/
example : ∃ F p : ℝ, anovaOneway ([[1, 2], [3, 6]].map nums) = .ok (fin F, fin p) ∧ 0 < p ∧ p < 1 := by
  have hw : within [[1, 2], [3, 6]] = 5 := by norm_num [within, sumSq, average]
  obtain ⟨F, p, h1, -, -, -, h2, h3, h4⟩ := anova_pvalue (gs := [[1, 2], [3, 6]]) (by simp) (by simp) (by rw [hw]; norm_num)
  refine ⟨F, p, h1, h2, lt_of_le_of_ne h3 fun e => ?_⟩
  have := h4.1 e [1, 2] (by simp)
  norm_num [average] at this

end anova

end Mpsci.stats
