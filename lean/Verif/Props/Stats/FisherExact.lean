import Verif.Lemmas.Stats.FisherExact

/-! Properties of `stats.fisher_exact`. -/

namespace Mpsci.fisherExact

open Classical Spec

variable (a b c d : ℕ)

/-- The p-value returned by `fisher_exact([[a, b], [c, d]], alternative)`. -/
def pvalue (a b c d : ℕ) (alternative : String) : M ℚ := do
  let r ← fisherExact a b c d alternative
  return r.2

theorem total_pos : (((a + b) + (c + d) : ℕ).choose (a + c) : ℤ) ≠ 0 := by
  have := Nat.choose_pos (by omega : a + c ≤ (a + b) + (c + d))
  exact_mod_cast this.ne'

theorem comb_total : comb ((a:ℤ) + b + (c + d)) (a + c) = (((a + b) + (c + d)).choose (a + c) : ℤ) := by
  exact_mod_cast comb_eq ((a + b) + (c + d)) (a + c)

theorem num_eq (k : ℕ) : numCombs k ((a:ℤ) + b) (a + c) (a + b + (c + d)) =
    (w (a + b) (c + d) (a + c) k : ℤ) := by
  exact_mod_cast numCombs_eq (a + b) (c + d) (a + c) k

theorem tcount_eq : comb ((a:ℤ) + b) a * comb ((c:ℤ) + d) c = (w (a + b) (c + d) (a + c) a : ℤ) := by
  have h1 : comb ((a:ℤ) + b) a = ((a + b).choose a : ℤ) := by exact_mod_cast comb_eq (a + b) a
  have h2 : comb ((c:ℤ) + d) c = ((c + d).choose c : ℤ) := by exact_mod_cast comb_eq (c + d) c
  rw [h1, h2, w, if_pos (by omega), Nat.add_sub_cancel_left]; push_cast; rfl

theorem fraction_eq (P : ℕ → Prop) :
    fraction (tableCount (a + b) (c + d) (a + c) P) (((a + b) + (c + d)).choose (a + c) : ℤ) =
      .ok (tableProb (a + b) (c + d) (a + c) P) := by
  rw [fraction, if_neg (total_pos a b c d), tableProb_eq]; simp

/-- C13: the p-value of the one-sided alternative `less` is the exact conditional probability of
an upper left cell of at most `a`. -/
theorem pvalue_less :
    pvalue a b c d "less" = .ok (tableProb (a + b) (c + d) (a + c) (· ≤ a)) := by
  have hs : ∑ k ∈ Finset.Ico (max 0 ((a:ℤ) + c - (c + d))) (a + 1),
      numCombs k ((a:ℤ) + b) (a + c) (a + b + (c + d)) =
      (tableCount (a + b) (c + d) (a + c) (· ≤ a) : ℤ) := by
    have : Finset.Ico (max 0 ((a:ℤ) + c - (c + d))) (a + 1) =
        Finset.Icc (max 0 ((a:ℤ) + c - (c + d))) a := by
      ext k; simp only [Finset.mem_Ico, Finset.mem_Icc]; omega
    rw [this, tableCount_eq' (N := a + c) (Or.inr le_rfl)]
    have hcongr : ∀ k ∈ Finset.Icc (max 0 ((a:ℤ) + c - (c + d))) a,
        numCombs k ((a:ℤ) + b) (a + c) (a + b + (c + d)) =
        if k ≤ a then numCombs k ((a:ℤ) + b) (a + c) (a + b + (c + d)) else 0 := by
      intro k hk; rw [Finset.mem_Icc] at hk; rw [if_pos hk.2]
    rw [Finset.sum_congr rfl hcongr]
    refine sum_int_eq (fun k => ?_) (by omega) (by omega) fun k hk h => ?_
    · rw [num_eq]; simp only [Nat.cast_le]; split_ifs <;> simp
    · by_cases hka : k ≤ a
      · rw [if_pos hka, w_zero_of_lt (by omega)]
      · rw [if_neg hka]
  simp only [pvalue, fisherExact, String.reduceEq, if_false, if_true, ok_bind, comb_total,
    foldl_add, zero_add, py.sum_range, hs, fraction_eq, pure_eq_ok]

/-- C13: likewise `greater`. -/
theorem pvalue_greater :
    pvalue a b c d "greater" = .ok (tableProb (a + b) (c + d) (a + c) (a ≤ ·)) := by
  have hs : ∑ k ∈ Finset.Ico (a:ℤ) (min ((a:ℤ) + b) (a + c) + 1),
      numCombs k ((a:ℤ) + b) (a + c) (a + b + (c + d)) =
      (tableCount (a + b) (c + d) (a + c) (a ≤ ·) : ℤ) := by
    have : Finset.Ico (a:ℤ) (min ((a:ℤ) + b) (a + c) + 1) =
        Finset.Icc (a:ℤ) (min ((a:ℤ) + b) (a + c)) := by
      ext k; simp only [Finset.mem_Ico, Finset.mem_Icc]; omega
    rw [this, tableCount_eq' (N := a + c) (Or.inr le_rfl)]
    have hcongr : ∀ k ∈ Finset.Icc (a:ℤ) (min ((a:ℤ) + b) (a + c)),
        numCombs k ((a:ℤ) + b) (a + c) (a + b + (c + d)) =
        if a ≤ k then numCombs k ((a:ℤ) + b) (a + c) (a + b + (c + d)) else 0 := by
      intro k hk; rw [Finset.mem_Icc] at hk; rw [if_pos hk.1]
    rw [Finset.sum_congr rfl hcongr]
    refine sum_int_eq (fun k => ?_) (by omega) (by omega) fun k hk h => ?_
    · rw [num_eq]; simp only [Nat.cast_le]; split_ifs <;> simp
    · by_cases hka : a ≤ k
      · rw [if_pos hka, w_zero_of_gt (by omega)]
      · rw [if_neg hka]
  simp only [pvalue, fisherExact, String.reduceEq, if_false, if_true, ok_bind, comb_total,
    foldl_add, zero_add, py.sum_range, hs, fraction_eq, pure_eq_ok]

/-- C13: the two-sided p-value is the exact conditional probability of the set of all tables that
are no more probable than the observed one. -/
theorem pvalue_two_sided :
    pvalue a b c d "two-sided" = .ok (tableProb (a + b) (c + d) (a + c) fun k =>
      tableProb (a + b) (c + d) (a + c) (· = k) ≤ tableProb (a + b) (c + d) (a + c) (· = a)) := by
  set num : ℤ → ℤ := fun m00 => numCombs m00 ((a:ℤ) + b) (a + c) (a + b + (c + d)) with hnum
  have hnumk : ∀ k : ℕ, num k = (w (a + b) (c + d) (a + c) k : ℤ) := fun k => num_eq a b c d k
  have hP : (fun k => tableProb (a + b) (c + d) (a + c) (· = k) ≤
      tableProb (a + b) (c + d) (a + c) (· = a)) =
      fun k => w (a + b) (c + d) (a + c) k ≤ w (a + b) (c + d) (a + c) a := by
    funext k
    have hp : (0:ℚ) < ((a + b + (c + d)).choose (a + c) : ℚ) := by
      exact_mod_cast Nat.choose_pos (by omega)
    rw [tableProb_eq, tableProb_eq, tableCount_eq_single, tableCount_eq_single,
      div_le_div_iff_of_pos_right hp, Nat.cast_le]
  rw [hP]
  obtain ⟨m00, cnt, h1, h2⟩ := scan_both (num := num)
    (t := (w (a + b) (c + d) (a + c) a : ℤ)) (lo := max 0 ((a:ℤ) + c - (c + d)))
    (hi := min ((a:ℤ) + b) (a + c)) (by omega) (by
      intro m k l hm hmk hkl hl h1 h2
      obtain ⟨m, rfl⟩ := Int.eq_ofNat_of_zero_le (by omega : 0 ≤ m)
      obtain ⟨k, rfl⟩ := Int.eq_ofNat_of_zero_le (by omega : 0 ≤ k)
      obtain ⟨l, rfl⟩ := Int.eq_ofNat_of_zero_le (by omega : 0 ≤ l)
      rw [hnumk] at h1 h2 ⊢
      have := w_quasiconcave (r0 := a + b) (r1 := c + d) (c0 := a + c) (m := m) (k := k) (l := l)
        (t := w (a + b) (c + d) (a + c) a) (by omega) (by omega) (by exact_mod_cast h1)
        (by exact_mod_cast h2)
      exact_mod_cast this)
  have hs : ∑ k ∈ Finset.Icc (max 0 ((a:ℤ) + c - (c + d))) (min ((a:ℤ) + b) (a + c)) with
      num k ≤ (w (a + b) (c + d) (a + c) a : ℤ), num k =
      (tableCount (a + b) (c + d) (a + c) (fun k => w (a + b) (c + d) (a + c) k ≤
        w (a + b) (c + d) (a + c) a) : ℤ) := by
    rw [Finset.sum_filter, tableCount_eq' (N := a + c) (Or.inr le_rfl)]
    refine sum_int_eq (fun k => ?_) (by omega) (by omega) fun k hk h => ?_
    · rw [hnumk]; simp only [Nat.cast_le]; split_ifs <;> simp
    · have : w (a + b) (c + d) (a + c) k = 0 := by
        by_cases h3 : a + b < k
        · exact w_zero_of_gt (Or.inl h3)
        · exact w_zero_of_lt (by omega)
      simp [this]
  rw [hs] at h2
  simp only [pvalue, fisherExact, if_true, comb_total, tcount_eq, ← hnum, h1, h2, fraction_eq,
    ok_bind, pure_eq_ok]

/-- C13: any other alternative raises ValueError. -/
theorem pvalue_invalid {alt : String} (h : alt ≠ "less" ∧ alt ≠ "greater" ∧ alt ≠ "two-sided") :
    pvalue a b c d alt = .error .valueError := by
  simp [pvalue, fisherExact, h.1, h.2.1, h.2.2]

/-- Non-vacuity of C13, and agreement of the specification with a hand count: for the table
`[[1, 1], [1, 0]]` there are 3 arrangements, 1 with the upper left cell 2 and 2 with 1. -/
example : pvalue 1 1 1 0 "less" = .ok (2 / 3) ∧ pvalue 1 1 1 0 "greater" = .ok 1 := by
  constructor <;> decide +kernel

theorem tableCount_mono {r0 r1 c0 : ℕ} {P Q : ℕ → Prop} (h : ∀ k, P k → Q k) :
    tableCount r0 r1 c0 P ≤ tableCount r0 r1 c0 Q :=
  Finset.card_le_card fun T hT => by
    simp only [Finset.mem_filter, Finset.mem_univ, true_and] at hT ⊢
    exact ⟨hT.1, h _ hT.2⟩

theorem tableProb_pos {P : ℕ → Prop} (h : P a) : 0 < tableProb (a + b) (c + d) (a + c) P := by
  have hp : (0:ℚ) < ((a + b + (c + d)).choose (a + c) : ℚ) := by
    exact_mod_cast Nat.choose_pos (by omega)
  rw [tableProb_eq]
  refine div_pos ?_ hp
  have h1 : tableCount (a + b) (c + d) (a + c) (· = a) ≤ tableCount (a + b) (c + d) (a + c) P :=
    tableCount_mono fun k hk => hk ▸ h
  rw [tableCount_eq_single] at h1
  have := w_pos (by omega : a ≤ a + b) (by omega : a ≤ a + c) (by omega : a + c ≤ a + (c + d))
  exact_mod_cast this.trans_le h1

theorem tableProb_le_one (r0 r1 c0 : ℕ) (P : ℕ → Prop) : tableProb r0 r1 c0 P ≤ 1 := by
  rw [tableProb]
  refine div_le_one_of_le₀ ?_ (by positivity)
  exact_mod_cast tableCount_mono fun _ _ => trivial

/-- C14: every p-value is in `(0, 1]`. -/
theorem pvalue_range {alt : String} (h : alt = "less" ∨ alt = "greater" ∨ alt = "two-sided") :
    ∃ p, pvalue a b c d alt = .ok p ∧ 0 < p ∧ p ≤ 1 := by
  rcases h with rfl | rfl | rfl
  · exact ⟨_, pvalue_less a b c d, tableProb_pos a b c d le_rfl, tableProb_le_one ..⟩
  · exact ⟨_, pvalue_greater a b c d, tableProb_pos a b c d le_rfl, tableProb_le_one ..⟩
  · exact ⟨_, pvalue_two_sided a b c d, tableProb_pos a b c d le_rfl, tableProb_le_one ..⟩

/-- C14: `less + greater = 1 + P(observed table)`. -/
theorem pvalue_less_add_greater : ∃ p q, pvalue a b c d "less" = .ok p ∧
    pvalue a b c d "greater" = .ok q ∧ p + q = 1 + tableProb (a + b) (c + d) (a + c) (· = a) := by
  refine ⟨_, _, pvalue_less a b c d, pvalue_greater a b c d, ?_⟩
  have hp : (0:ℚ) < ((a + b + (c + d)).choose (a + c) : ℚ) := by
    exact_mod_cast Nat.choose_pos (by omega)
  have h : tableCount (a + b) (c + d) (a + c) (· ≤ a) + tableCount (a + b) (c + d) (a + c) (a ≤ ·) =
      (a + b + (c + d)).choose (a + c) + tableCount (a + b) (c + d) (a + c) (· = a) := by
    rw [← tableCount_true]
    simp only [tableCount_eq' (N := a + c) (Or.inr le_rfl : a + b ≤ a + c ∨ a + c ≤ a + c)]
    rw [← Finset.sum_add_distrib, ← Finset.sum_add_distrib]
    refine Finset.sum_congr rfl fun k _ => ?_
    rcases lt_trichotomy k a with h | h | h
    · simp [h.le, h.not_ge, h.ne]
    · simp [h]
    · simp [h.le, h.not_ge, h.ne']
  rw [tableProb_eq, tableProb_eq, tableProb_eq, ← add_div, eq_comm, ← div_self hp.ne', ← add_div,
    eq_comm]
  congr 1
  exact_mod_cast h

/-- C14: transposing the table changes no p-value. -/
theorem pvalue_transpose (alt : String) : pvalue a b c d alt = pvalue a c b d alt := by
  have hc : (a + c) + (b + d) = (a + b) + (c + d) := by omega
  by_cases h1 : alt = "less"
  · rw [h1, pvalue_less, pvalue_less, tableProb_transpose hc]
  · by_cases h2 : alt = "greater"
    · rw [h2, pvalue_greater, pvalue_greater, tableProb_transpose hc]
    · by_cases h3 : alt = "two-sided"
      · rw [h3, pvalue_two_sided, pvalue_two_sided, tableProb_transpose hc]
        simp only [tableProb_transpose hc]
      · rw [pvalue_invalid _ _ _ _ ⟨h1, h2, h3⟩, pvalue_invalid _ _ _ _ ⟨h1, h2, h3⟩]

theorem tableProb_congr {r0 r1 c0 : ℕ} {P Q : ℕ → Prop}
    (h : ∀ k, k ≤ r0 → k ≤ c0 → (P k ↔ Q k)) : tableProb r0 r1 c0 P = tableProb r0 r1 c0 Q := by
  rw [tableProb_eq, tableProb_eq, tableCount_eq' (N := min r0 c0) (by omega),
    tableCount_eq' (N := min r0 c0) (by omega)]
  congr 2
  refine Finset.sum_congr rfl fun k hk => ?_
  rw [Finset.mem_range] at hk
  simp only [h k (by omega) (by omega)]

theorem tableProb_swap_rows (r0 r1 c0 : ℕ) (P : ℕ → Prop) :
    tableProb r0 r1 c0 P = tableProb r1 r0 c0 (fun k => P (c0 - k)) := by
  rw [tableProb_eq, tableProb_eq, tableCount_swap_rows, add_comm r1 r0]

theorem tableProb_swap_cols {r0 r1 c0 c1 : ℕ} (hc : c0 + c1 = r0 + r1) (P : ℕ → Prop) :
    tableProb r0 r1 c0 P = tableProb r0 r1 c1 (fun k => P (r0 - k)) := by
  have : c1 = r0 + r1 - c0 := by omega
  subst this
  rw [tableProb_eq, tableProb_eq, tableCount_swap_cols (by omega), Nat.choose_symm (by omega)]

/-- C14: swapping the rows exchanges `less` and `greater` and keeps `two-sided`. -/
theorem pvalue_swap_rows :
    pvalue a b c d "less" = pvalue c d a b "greater" ∧
    pvalue a b c d "greater" = pvalue c d a b "less" ∧
    pvalue a b c d "two-sided" = pvalue c d a b "two-sided" := by
  refine ⟨?_, ?_, ?_⟩
  · rw [pvalue_less, pvalue_greater, tableProb_swap_rows, add_comm c a]
    congr 1; refine tableProb_congr fun k h1 h2 => ?_; omega
  · rw [pvalue_greater, pvalue_less, tableProb_swap_rows, add_comm c a]
    congr 1; refine tableProb_congr fun k h1 h2 => ?_; omega
  · rw [pvalue_two_sided, pvalue_two_sided, tableProb_swap_rows, add_comm c a]
    congr 1; refine tableProb_congr fun k h1 h2 => ?_
    rw [tableProb_swap_rows _ _ _ (· = a + c - k), tableProb_swap_rows _ _ _ (· = a)]
    rw [tableProb_congr (P := fun j => a + c - j = a + c - k) (Q := (· = k)) (by intro j _ _; omega),
      tableProb_congr (P := fun j => a + c - j = a) (Q := (· = c)) (by intro j _ _; omega)]

/-- C14: swapping the columns exchanges `less` and `greater` and keeps `two-sided`. -/
theorem pvalue_swap_cols :
    pvalue a b c d "less" = pvalue b a d c "greater" ∧
    pvalue a b c d "greater" = pvalue b a d c "less" ∧
    pvalue a b c d "two-sided" = pvalue b a d c "two-sided" := by
  have hc : (a + c) + (b + d) = (a + b) + (c + d) := by omega
  refine ⟨?_, ?_, ?_⟩
  · rw [pvalue_less, pvalue_greater, tableProb_swap_cols hc, add_comm b a, add_comm d c]
    congr 1; refine tableProb_congr fun k h1 h2 => ?_; omega
  · rw [pvalue_greater, pvalue_less, tableProb_swap_cols hc, add_comm b a, add_comm d c]
    congr 1; refine tableProb_congr fun k h1 h2 => ?_; omega
  · rw [pvalue_two_sided, pvalue_two_sided, tableProb_swap_cols hc, add_comm b a, add_comm d c]
    congr 1; refine tableProb_congr fun k h1 h2 => ?_
    rw [tableProb_swap_cols hc (· = a + b - k), tableProb_swap_cols hc (· = a)]
    rw [tableProb_congr (P := fun j => a + b - j = a + b - k) (Q := (· = k)) (by intro j _ _; omega),
      tableProb_congr (P := fun j => a + b - j = a) (Q := (· = b)) (by intro j _ _; omega)]

/-- Non-vacuity of C14: a table whose two one-sided p-values differ. -/
example : pvalue 3 1 0 2 "less" = .ok 1 ∧ pvalue 3 1 0 2 "greater" = .ok (1 / 5) ∧
    pvalue 0 2 3 1 "less" = .ok (1 / 5) ∧ pvalue 3 1 0 2 "two-sided" = .ok (2 / 5) := by
  refine ⟨?_, ?_, ?_, ?_⟩ <;> decide +kernel

end Mpsci.fisherExact
