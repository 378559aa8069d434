import Verif.Model.Stats.Basic
import Verif.Spec.Stats

/-! Properties of `stats.unique_counts`. -/

namespace Mpsci.stats

open Spec

variable {α : Type} [LinearOrder α]

theorem groupby_ne_nil {l : List α} (h : l ≠ []) : groupbyCounts l ≠ [] := by
  cases l with
  | nil => exact absurd rfl h
  | cons a l =>
    rw [groupbyCounts]
    split
    · simp
    · split_ifs <;> simp

theorem groupby_head {a : α} {l : List α} : ∃ n r, groupbyCounts (a :: l) = (a, n) :: r := by
  rw [groupbyCounts]
  split
  · exact ⟨_, _, rfl⟩
  · split_ifs <;> exact ⟨_, _, rfl⟩

theorem groupby_pos (l : List α) : ∀ q ∈ groupbyCounts l, 0 < q.2 := by
  induction l with
  | nil => simp [groupbyCounts]
  | cons a l ih =>
    rw [groupbyCounts]
    split
    · simp
    · rename_i b n r e
      rw [e] at ih
      split_ifs
      · intro q hq
        rcases List.mem_cons.1 hq with rfl | hq
        · simp
        · exact ih q (List.mem_cons_of_mem _ hq)
      · intro q hq
        rcases List.mem_cons.1 hq with rfl | hq
        · simp
        · exact ih q hq

theorem groupby_expand (l : List α) :
    (groupbyCounts l).flatMap (fun q => List.replicate q.2 q.1) = l := by
  induction l with
  | nil => simp [groupbyCounts]
  | cons a l ih =>
    rw [groupbyCounts]
    split
    · rename_i e; rw [e] at ih; simp at ih; simp [← ih]
    · rename_i b n r e
      rw [e] at ih
      split_ifs with h
      · subst h; simp [← ih, List.replicate_succ]
      · simp [← ih]

theorem groupby_sorted {l : List α} (h : l.Pairwise (· ≤ ·)) :
    ((groupbyCounts l).map Prod.fst).Pairwise (· < ·) := by
  induction l with
  | nil => simp [groupbyCounts]
  | cons a l ih =>
    have ih := ih (List.pairwise_cons.1 h).2
    cases l with
    | nil => simp [groupbyCounts]
    | cons b l =>
      have hab : a ≤ b := (List.pairwise_cons.1 h).1 b (by simp)
      obtain ⟨n, r, e⟩ := groupby_head (a := b) (l := l)
      rw [groupbyCounts, e]
      rw [e] at ih
      simp only [List.map_cons] at ih
      show List.Pairwise _ (List.map Prod.fst (if a = b then (a, n + 1) :: r else (a, 1) :: (b, n) :: r))
      split_ifs with h'
      · subst h'; simpa using ih
      · simp only [List.map_cons]
        refine List.pairwise_cons.2 ⟨?_, ih⟩
        intro c hc
        have hlt := lt_of_le_of_ne hab h'
        rcases List.mem_cons.1 hc with rfl | hc
        · exact hlt
        · exact hlt.trans ((List.pairwise_cons.1 ih).1 c hc)

/-- C24: `unique_counts` returns strictly increasing values and positive counts, as many counts as
values, and repeating each value by its count gives back a permutation of the input. -/
theorem uniqueCounts_spec (x : List α) (hx : x ≠ []) : ∃ xv xc, uniqueCounts x = .ok (xv, xc) ∧
    xv.Pairwise (· < ·) ∧ (∀ n ∈ xc, 0 < n) ∧ xc.length = xv.length ∧
    (replicated xv xc).Perm x := by
  set s := x.mergeSort (fun a b => a ≤ b) with hs
  have hp : s.Perm x := List.mergeSort_perm x _
  have hsort : s.Pairwise (· ≤ ·) := by
    have := List.pairwise_mergeSort (le := fun a b : α => decide (a ≤ b))
      (by intro a b c h1 h2; simp at *; exact h1.trans h2)
      (by intro a b; simpa using le_total a b) x
    simpa using this
  have hne : s ≠ [] := by
    intro h; rw [h] at hp; exact hx hp.nil_eq.symm
  refine ⟨(groupbyCounts s).map Prod.fst, (groupbyCounts s).map Prod.snd, ?_, groupby_sorted hsort,
    ?_, by simp, ?_⟩
  · rw [uniqueCounts, ← hs]
    have := groupby_ne_nil hne
    split
    · rename_i e; exact absurd e this
    · rfl
  · intro n hn
    obtain ⟨q, hq, rfl⟩ := List.mem_map.1 hn
    exact groupby_pos s q hq
  · have e : replicated ((groupbyCounts s).map Prod.fst) ((groupbyCounts s).map Prod.snd) = s := by
      rw [replicated, ← List.unzip_fst, ← List.unzip_snd, List.zip_unzip, groupby_expand]
    rw [e]; exact hp

/-- C24: the count of each value is the number of its occurrences. -/
theorem uniqueCounts_count (x : List α) {xv : List α} {xc : List ℕ}
    (h : uniqueCounts x = .ok (xv, xc)) (i : ℕ) (hi : i < xv.length) (hi' : i < xc.length) :
    xc[i] = x.count xv[i] := by
  have hx : x ≠ [] := by rintro rfl; simp [uniqueCounts, groupbyCounts] at h
  obtain ⟨xv', xc', e, h1, h2, h3, h4⟩ := uniqueCounts_spec x hx
  rw [e] at h
  obtain ⟨rfl, rfl⟩ : xv' = xv ∧ xc' = xc := by simpa using h
  rw [← h4.count_eq]
  clear h h4 e hx h2
  induction xv' generalizing xc' i with
  | nil => simp at hi
  | cons a l ih =>
    cases xc' with
    | nil => simp at hi'
    | cons n c =>
      have hr : ∀ b, (replicated (a :: l) (n :: c)).count b =
          (List.replicate n a).count b + (replicated l c).count b := by
        intro b; simp [replicated]
      have hl := List.pairwise_cons.1 h1
      cases i with
      | zero =>
        simp only [List.getElem_cons_zero, hr]
        have : (replicated l c).count a = 0 := by
          rw [List.count_eq_zero]
          intro hm
          simp only [replicated, List.mem_flatMap, List.mem_replicate] at hm
          obtain ⟨q, hq, _, e⟩ := hm
          exact absurd (hl.1 _ (List.of_mem_zip hq).1) (by rw [← e]; exact lt_irrefl a)
        simp [this]
      | succ i =>
        simp only [List.getElem_cons_succ, hr]
        have hlt : a < l[i]'(by simpa using hi) := hl.1 _ (List.getElem_mem _)
        rw [List.count_replicate, if_neg (by simpa using hlt.ne), zero_add]
        exact ih i (xc' := c) hl.2 (by simpa using h3) (by simpa using hi) (by simpa using hi')

/-- C24: empty input raises ValueError. -/
theorem uniqueCounts_nil : uniqueCounts ([] : List α) = .error .valueError := by
  simp [uniqueCounts, groupbyCounts]

/-- Non-vacuity. -/
example : uniqueCounts [3, 1, 3, 2, 1, 3] = .ok ([1, 2, 3], [2, 1, 3]) := by
  simp [uniqueCounts, List.mergeSort, List.MergeSort.Internal.splitInTwo, groupbyCounts]

end Mpsci.stats
