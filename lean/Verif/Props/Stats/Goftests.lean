import Verif.Model.Stats.Goftests
import Verif.Lemmas.Fun.Powm1
import Verif.Spec.Stats

/-! Properties of the statistics of `stats.chisquare` and `stats.gtest`.  Observed and expected
frequencies are given as a list `d` of pairs (observed, expected). -/

namespace Mpsci.stats

open Classical Num fun_ Spec

variable {d : List (ℝ × ℝ)} {rel : ℝ}

/-- Observed and expected totals. -/
noncomputable def totals (d : List (ℝ × ℝ)) : ℝ × ℝ := ((d.map Prod.fst).sum, (d.map Prod.snd).sum)

theorem checkTotals_eval (d : List (ℝ × ℝ)) (rel : ℝ) :
    checkTotals (nums (d.map Prod.fst)) (nums (d.map Prod.snd)) rel =
      if almosteq (totals d).1 (totals d).2 rel then .ok () else .error .valueError := by
  simp only [checkTotals, nums, mp.fsum_fin]; rfl

theorem zip_nums (d : List (ℝ × ℝ)) : List.zip (nums (d.map Prod.fst)) (nums (d.map Prod.snd)) =
    d.map fun q => (fin q.1, fin q.2) := by
  induction d with
  | nil => simp [nums]
  | cons a l ih => simp only [nums, List.map_cons, List.zip_cons_cons] at ih ⊢; rw [ih]

theorem mapM_pairs {f : Num × Num → M Num} {g : ℝ × ℝ → ℝ}
    (h : ∀ q ∈ d, f (fin q.1, fin q.2) = .ok (fin (g q))) :
    (d.map fun q => (fin q.1, fin q.2)).mapM f = .ok (d.map fun q => fin (g q)) := by
  induction d with
  | nil => simp
  | cons a l ih =>
    rw [List.map_cons, List.mapM_cons, h a (by simp), ok_bind,
      ih fun t ht => h t (List.mem_cons_of_mem _ ht)]
    simp

theorem chisquare_eval (he : ∀ q ∈ d, q.2 ≠ 0) (ht : almosteq (totals d).1 (totals d).2 rel) :
    chisquareStat (nums (d.map Prod.fst)) (nums (d.map Prod.snd)) rel =
      .ok (fin (d.map fun q => (q.1 - q.2) ^ 2 / q.2).sum) := by
  rw [chisquareStat, checkTotals_eval, if_pos ht, ok_bind, zip_nums,
    mapM_pairs (g := fun q => (q.1 - q.2) ^ 2 / q.2)]
  · simp [mp.fsum_map_fin]
  · intro q hq; simp [fin_div _ (he q hq), pow_two]

theorem sum_map_eq_zero' {f : ℝ × ℝ → ℝ} (h : ∀ t ∈ d, 0 ≤ f t) :
    (d.map f).sum = 0 ↔ ∀ t ∈ d, f t = 0 := by
  induction d with
  | nil => simp
  | cons a l ih =>
    have h1 := h a (by simp)
    have h2 : 0 ≤ (l.map f).sum :=
      List.sum_nonneg (by
        intro b hb
        obtain ⟨t, ht, rfl⟩ := List.mem_map.1 hb
        exact h t (List.mem_cons_of_mem _ ht))
    have h3 := ih fun t ht => h t (List.mem_cons_of_mem _ ht)
    simp only [List.map_cons, List.sum_cons, List.forall_mem_cons, ← h3]
    constructor
    · intro h4; constructor <;> linarith
    · rintro ⟨h4, h5⟩; rw [h4, h5, add_zero]

/-- C27: `chisquare`'s statistic is `sum((o - e)**2/e)`, nonnegative, and 0 exactly when observed
equals expected. -/
theorem chisquare_spec (he : ∀ q ∈ d, 0 < q.2)
    (ht : almosteq (d.map Prod.fst).sum (d.map Prod.snd).sum rel) :
    ∃ s, chisquareStat (nums (d.map Prod.fst)) (nums (d.map Prod.snd)) rel = .ok (fin s) ∧
      s = (d.map fun q => (q.1 - q.2) ^ 2 / q.2).sum ∧ 0 ≤ s ∧
      (s = 0 ↔ d.map Prod.fst = d.map Prod.snd) := by
  have hn : ∀ q ∈ d, 0 ≤ (q.1 - q.2) ^ 2 / q.2 :=
    fun q hq => div_nonneg (sq_nonneg _) (he q hq).le
  refine ⟨_, chisquare_eval (fun q hq => (he q hq).ne') ht, rfl, ?_, ?_⟩
  · refine List.sum_nonneg ?_
    intro v hv
    obtain ⟨q, hq, rfl⟩ := List.mem_map.1 hv
    exact hn q hq
  · rw [sum_map_eq_zero' hn, List.map_inj_left]
    refine forall₂_congr fun q hq => ?_
    have := (he q hq).ne'
    rw [div_eq_zero_iff, or_iff_left this, pow_eq_zero_iff two_ne_zero, sub_eq_zero]

theorem gtest_eval (hd : ∀ q ∈ d, 0 ≤ q.1 ∧ 0 < q.2)
    (ht : almosteq (totals d).1 (totals d).2 rel) :
    gtestStat (nums (d.map Prod.fst)) (nums (d.map Prod.snd)) rel =
      .ok (fin (d.map fun q => 2 * (q.1 * Real.log (q.1 / q.2))).sum) := by
  rw [gtestStat, checkTotals_eval, if_pos ht, ok_bind, zip_nums,
    mapM_pairs (g := fun q => 2 * (q.1 * Real.log (q.1 / q.2)))]
  · simp only [ok_bind, pure_eq_ok, mp.fsum_map_fin]
  · intro q hq
    obtain ⟨h1, h2⟩ := hd q hq
    rw [fin_div _ h2.ne', ok_bind]
    rcases h1.eq_or_lt with h | h
    · rw [← h]; simp [xlogy]
    · rw [xlogy_eval (div_pos h h2)]; simp

/-- The inequality behind Gibbs': `o*log(o/e) >= o - e`, with equality only for `o = e`. -/
theorem log_ineq {o e : ℝ} (ho : 0 ≤ o) (he : 0 < e) :
    o - e ≤ o * Real.log (o / e) ∧ (o * Real.log (o / e) = o - e → o = e) := by
  rcases ho.eq_or_lt with h | h
  · rw [← h]; constructor
    · simp [he.le]
    · intro h'; simp at h'; exact absurd h' he.ne'
  · have hd : 0 < e / o := div_pos he h
    have e1 : Real.log (o / e) = -Real.log (e / o) := by rw [← Real.log_inv, inv_div]
    constructor
    · have := Real.log_le_sub_one_of_pos hd
      rw [e1]
      have := mul_le_mul_of_nonneg_left this h.le
      have e2 : o * (e / o - 1) = e - o := by field_simp
      linarith
    · intro h'
      by_contra hne
      have hne' : e / o ≠ 1 := by
        intro h2; rw [div_eq_one_iff_eq h.ne'] at h2; exact hne h2.symm
      have := Real.log_lt_sub_one_of_pos hd hne'
      rw [e1] at h'
      have := mul_lt_mul_of_pos_left this h
      have e2 : o * (e / o - 1) = e - o := by field_simp
      linarith

theorem sum_map_sub' (d : List (ℝ × ℝ)) (f g : ℝ × ℝ → ℝ) :
    (d.map fun q => f q - g q).sum = (d.map f).sum - (d.map g).sum := by
  induction d with
  | nil => simp
  | cons a l ih => simp [ih]; ring

theorem sum_sub (d : List (ℝ × ℝ)) :
    (d.map fun q => q.1 - q.2).sum = (d.map Prod.fst).sum - (d.map Prod.snd).sum := by
  induction d with
  | nil => simp
  | cons a l ih => simp [ih]; ring

/-- C27: `gtest`'s statistic is `2*sum(o*log(o/e))` (a term with `o = 0` being 0).  For equal totals
it is nonnegative, and 0 exactly when observed equals expected. -/
theorem gtest_spec (hd : ∀ q ∈ d, 0 ≤ q.1 ∧ 0 < q.2)
    (ht : (d.map Prod.fst).sum = (d.map Prod.snd).sum) :
    ∃ s, gtestStat (nums (d.map Prod.fst)) (nums (d.map Prod.snd)) rel = .ok (fin s) ∧
      s = (d.map fun q => 2 * (q.1 * Real.log (q.1 / q.2))).sum ∧ 0 ≤ s ∧
      (s = 0 ↔ d.map Prod.fst = d.map Prod.snd) := by
  have ha : almosteq (totals d).1 (totals d).2 rel := by left; simp [totals, ht]
  have key : (d.map fun q => 2 * (q.1 * Real.log (q.1 / q.2))).sum =
      2 * (d.map fun q => q.1 * Real.log (q.1 / q.2) - (q.1 - q.2)).sum := by
    have := sum_sub d
    rw [ht, sub_self] at this
    rw [List.sum_map_mul_left, sum_map_sub', this, sub_zero]
  have hn : ∀ q ∈ d, 0 ≤ q.1 * Real.log (q.1 / q.2) - (q.1 - q.2) :=
    fun q hq => sub_nonneg.2 (log_ineq (hd q hq).1 (hd q hq).2).1
  refine ⟨_, gtest_eval hd ha, rfl, ?_, ?_⟩
  · rw [key]
    refine mul_nonneg zero_le_two (List.sum_nonneg ?_)
    intro v hv
    obtain ⟨q, hq, rfl⟩ := List.mem_map.1 hv
    exact hn q hq
  · rw [key, mul_eq_zero, or_iff_right two_ne_zero, sum_map_eq_zero' hn, List.map_inj_left]
    refine forall₂_congr fun q hq => ?_
    constructor
    · intro h; exact (log_ineq (hd q hq).1 (hd q hq).2).2 (by linarith)
    · intro h; have h2 := (hd q hq).2
      rw [h, div_self h2.ne']; simp

/-- C27: totals that agree only up to the tolerance: the statistic may be negative, but not below
minus twice the excess of the expected over the observed total. -/
theorem gtest_lower_bound (hd : ∀ q ∈ d, 0 ≤ q.1 ∧ 0 < q.2)
    (ht : almosteq (d.map Prod.fst).sum (d.map Prod.snd).sum rel) :
    ∃ s, gtestStat (nums (d.map Prod.fst)) (nums (d.map Prod.snd)) rel = .ok (fin s) ∧
      2 * ((d.map Prod.fst).sum - (d.map Prod.snd).sum) ≤ s := by
  refine ⟨_, gtest_eval hd ht, ?_⟩
  rw [← sum_sub, List.sum_map_mul_left]
  refine mul_le_mul_of_nonneg_left (List.sum_le_sum fun q hq => ?_) zero_le_two
  exact (log_ineq (hd q hq).1 (hd q hq).2).1

/-- C27: totals that differ by more than the tolerance raise ValueError. -/
theorem gof_raises {o e : List ℝ} (h : rel * max |o.sum| |e.sum| < |o.sum - e.sum|)
    (hr : 0 ≤ rel) :
    chisquareStat (nums o) (nums e) rel = .error .valueError ∧
    gtestStat (nums o) (nums e) rel = .error .valueError := by
  have h1 : ¬ almosteq o.sum e.sum rel := by
    rintro (h' | h')
    · have : 0 ≤ rel * max |o.sum| |e.sum| := mul_nonneg hr (le_max_of_le_left (abs_nonneg _))
      linarith
    · have hne : o.sum - e.sum ≠ 0 := by
        intro h0; rw [h0] at h; simp at h
        have : 0 ≤ rel * max |o.sum| |e.sum| := mul_nonneg hr (le_max_of_le_left (abs_nonneg _))
        linarith
      split_ifs at h' with hlt
      · have hp : 0 < |e.sum| := (abs_nonneg _).trans_lt hlt
        rw [max_eq_right hlt.le] at h
        rw [div_le_iff₀ hp] at h'
        linarith
      · rw [max_eq_left (not_lt.1 hlt)] at h
        have hp : 0 < |o.sum| := by
          rcases (abs_nonneg o.sum).eq_or_lt with h0 | h0
          · exfalso
            have h2 : |e.sum| ≤ 0 := by rw [h0]; exact not_lt.1 hlt
            have h3 : e.sum = 0 := abs_nonpos_iff.1 h2
            have h4 : o.sum = 0 := abs_eq_zero.1 h0.symm
            exact hne (by rw [h3, h4, sub_zero])
          · exact h0
        rw [div_le_iff₀ hp] at h'
        linarith
  have h2 : checkTotals (nums o) (nums e) rel = .error .valueError := by
    simp only [checkTotals, nums, mp.fsum_fin, h1, if_false]
  rw [chisquareStat, gtestStat, h2]; exact ⟨rfl, rfl⟩

/-- C27: an expected frequency of 0 raises ZeroDivisionError (after the check of the totals). -/
theorem chisquare_zero_expected :
    chisquareStat (nums [0, 1]) (nums [0, 1]) 0 = .error .zeroDivision := by
  simp [chisquareStat, checkTotals, nums, almosteq]

/-- Non-vacuity: `chisquare([10, 20], [15, 15]) = 10/3`. -/
example : (∀ q ∈ ([(10, 15), (20, 15)] : List (ℝ × ℝ)), 0 < q.2) ∧
    chisquareStat (nums [10, 20]) (nums [15, 15]) 0 = .ok (fin (10 / 3)) := by
  refine ⟨by norm_num, ?_⟩
  have := chisquare_eval (d := [(10, 15), (20, 15)]) (rel := 0) (by norm_num)
    (by left; norm_num [totals])
  simp only [List.map_cons, List.map_nil] at this
  rw [this]; norm_num

end Mpsci.stats
