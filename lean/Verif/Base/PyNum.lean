import Verif.Base.Mp

/-!
# Python built-ins on mpmath numbers
-/

namespace Mpsci.py

open Classical Num

/-- `max(iterable)`: keeps the first element unless a later one compares greater; ValueError when
empty. -/
noncomputable def max : List Num → M Num
  | [] => .error .valueError
  | a :: l => .ok (l.foldl (fun m t => if t > m then t else m) a)

/-- `min(iterable)` -/
noncomputable def min : List Num → M Num
  | [] => .error .valueError
  | a :: l => .ok (l.foldl (fun m t => if t < m then t else m) a)

theorem foldl_max_fin (l : List ℝ) (a : ℝ) :
    ∃ m ∈ a :: l, (∀ t ∈ a :: l, t ≤ m) ∧
      (l.map fin).foldl (fun m t => if t > m then t else m) (fin a) = fin m := by
  induction l generalizing a with
  | nil => exact ⟨a, by simp, by simp, rfl⟩
  | cons b l ih =>
    by_cases h : a < b
    · obtain ⟨m, h1, h2, h3⟩ := ih b
      refine ⟨m, List.mem_cons_of_mem _ h1, ?_, ?_⟩
      · intro t ht
        rcases List.mem_cons.1 ht with rfl | ht
        · exact h.le.trans (h2 b (by simp))
        · exact h2 t ht
      · simp only [List.map_cons, List.foldl_cons]
        rw [if_pos (by simpa using h)]; exact h3
    · obtain ⟨m, h1, h2, h3⟩ := ih a
      refine ⟨m, ?_, ?_, ?_⟩
      · rcases List.mem_cons.1 h1 with rfl | h1
        · simp
        · exact List.mem_cons_of_mem _ (List.mem_cons_of_mem _ h1)
      · intro t ht
        rcases List.mem_cons.1 ht with rfl | ht
        · exact h2 _ (by simp)
        · rcases List.mem_cons.1 ht with rfl | ht
          · exact (not_lt.1 h).trans (h2 _ (by simp))
          · exact h2 t (List.mem_cons_of_mem _ ht)
      · simp only [List.map_cons, List.foldl_cons]
        rw [if_neg (by simpa using h)]; exact h3

theorem foldl_min_fin (l : List ℝ) (a : ℝ) :
    ∃ m ∈ a :: l, (∀ t ∈ a :: l, m ≤ t) ∧
      (l.map fin).foldl (fun m t => if t < m then t else m) (fin a) = fin m := by
  induction l generalizing a with
  | nil => exact ⟨a, by simp, by simp, rfl⟩
  | cons b l ih =>
    by_cases h : b < a
    · obtain ⟨m, h1, h2, h3⟩ := ih b
      refine ⟨m, List.mem_cons_of_mem _ h1, ?_, ?_⟩
      · intro t ht
        rcases List.mem_cons.1 ht with rfl | ht
        · exact (h2 b (by simp)).trans h.le
        · exact h2 t ht
      · simp only [List.map_cons, List.foldl_cons]
        rw [if_pos (by simpa using h)]; exact h3
    · obtain ⟨m, h1, h2, h3⟩ := ih a
      refine ⟨m, ?_, ?_, ?_⟩
      · rcases List.mem_cons.1 h1 with rfl | h1
        · simp
        · exact List.mem_cons_of_mem _ (List.mem_cons_of_mem _ h1)
      · intro t ht
        rcases List.mem_cons.1 ht with rfl | ht
        · exact h2 _ (by simp)
        · rcases List.mem_cons.1 ht with rfl | ht
          · exact (h2 _ (by simp)).trans (not_lt.1 h)
          · exact h2 t (List.mem_cons_of_mem _ ht)
      · simp only [List.map_cons, List.foldl_cons]
        rw [if_neg (by simpa using h)]; exact h3

theorem max_fin {l : List ℝ} (h : l ≠ []) :
    ∃ m ∈ l, (∀ t ∈ l, t ≤ m) ∧ max (l.map fin) = .ok (fin m) := by
  obtain ⟨a, l, rfl⟩ := List.exists_cons_of_ne_nil h
  obtain ⟨m, h1, h2, h3⟩ := foldl_max_fin l a
  exact ⟨m, h1, h2, by rw [List.map_cons, max, h3]⟩

theorem min_fin {l : List ℝ} (h : l ≠ []) :
    ∃ m ∈ l, (∀ t ∈ l, m ≤ t) ∧ min (l.map fin) = .ok (fin m) := by
  obtain ⟨a, l, rfl⟩ := List.exists_cons_of_ne_nil h
  obtain ⟨m, h1, h2, h3⟩ := foldl_min_fin l a
  exact ⟨m, h1, h2, by rw [List.map_cons, min, h3]⟩

/-- A list comprehension none of whose elements raises. -/
theorem mapM_fin {α : Type} (l : List α) {f : α → M Num} {g : α → ℝ}
    (h : ∀ t ∈ l, f t = .ok (fin (g t))) : l.mapM f = .ok (l.map fun t => fin (g t)) := by
  induction l with
  | nil => simp
  | cons a l ih =>
    rw [List.mapM_cons, h a (by simp), ok_bind, ih fun t ht => h t (List.mem_cons_of_mem _ ht)]
    simp

end Mpsci.py
