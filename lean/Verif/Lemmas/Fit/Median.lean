import Verif.Model.Fit.LocScale
import Verif.Lemmas.Fit.Basic

/-! The median minimises the sum of absolute deviations. -/

namespace Mpsci

open Classical Num

theorem sum_ite_countP (xs : List ℝ) (p : ℝ → Prop) [DecidablePred p] :
    (xs.map fun x => if p x then (1:ℝ) else -1).sum = 2 * (xs.countP fun x => decide (p x)) - xs.length := by
  induction xs with
  | nil => simp
  | cons a t ih =>
    rw [List.map_cons, List.sum_cons, ih, List.countP_cons]
    by_cases h : p a <;> simp [h] <;> ring

theorem abs_dev_min {xs : List ℝ} {m : ℝ} (h1 : xs.length ≤ 2 * xs.countP fun x => decide (x ≤ m))
    (h2 : xs.length ≤ 2 * xs.countP fun x => decide (m ≤ x)) (c : ℝ) :
    (xs.map fun x => |x - m|).sum ≤ (xs.map fun x => |x - c|).sum := by
  have h1' : (xs.length : ℝ) ≤ 2 * (xs.countP fun x => decide (x ≤ m) : ℕ) := by exact_mod_cast h1
  have h2' : (xs.length : ℝ) ≤ 2 * (xs.countP fun x => decide (m ≤ x) : ℕ) := by exact_mod_cast h2
  rcases le_total m c with h | h
  · have h3 : (xs.map fun x => |x - m| + (c - m) * (if x ≤ m then (1:ℝ) else -1)).sum ≤ (xs.map fun x => |x - c|).sum := by
      refine List.sum_le_sum fun x _ => ?_
      split_ifs with hx
      · rw [abs_of_nonpos (by linarith), abs_of_nonpos (by linarith)]; linarith
      · have := abs_sub_abs_le_abs_sub (x - m) (x - c)
        rw [show x - m - (x - c) = c - m by ring, abs_of_nonneg (by linarith : 0 ≤ c - m)] at this; linarith
    rw [List.sum_map_add, List.sum_map_mul_left, sum_ite_countP] at h3
    nlinarith
  · have h3 : (xs.map fun x => |x - m| + (m - c) * (if m ≤ x then (1:ℝ) else -1)).sum ≤ (xs.map fun x => |x - c|).sum := by
      refine List.sum_le_sum fun x _ => ?_
      split_ifs with hx
      · rw [abs_of_nonneg (by linarith), abs_of_nonneg (by linarith)]; linarith
      · have := abs_sub_abs_le_abs_sub (x - m) (x - c)
        rw [show x - m - (x - c) = -(m - c) by ring, abs_neg, abs_of_nonneg (by linarith : 0 ≤ m - c)] at this; linarith
    rw [List.sum_map_add, List.sum_map_mul_left, sum_ite_countP] at h3
    nlinarith

theorem countP_sorted_le {s : List ℝ} (hs : s.Pairwise (· ≤ ·)) {i : ℕ} (hi : i < s.length) {m : ℝ} (hm : s[i] ≤ m) :
    i + 1 ≤ s.countP fun x => decide (x ≤ m) := by
  have h : (s.take (i + 1)).countP (fun x => decide (x ≤ m)) = (s.take (i + 1)).length := by
    rw [List.countP_eq_length]
    intro x hx
    obtain ⟨j, hj, rfl⟩ := List.mem_take_iff_getElem.1 hx
    rw [decide_eq_true_eq]
    refine le_trans ?_ hm
    rcases (show j ≤ i by omega).lt_or_eq with h | rfl
    · exact List.pairwise_iff_getElem.1 hs j i _ hi h
    · exact le_rfl
  have h2 := (List.take_sublist (i + 1) s).countP_le (p := fun x => decide (x ≤ m))
  rw [h, List.length_take] at h2
  omega

theorem countP_sorted_ge {s : List ℝ} (hs : s.Pairwise (· ≤ ·)) {i : ℕ} (hi : i < s.length) {m : ℝ} (hm : m ≤ s[i]) :
    s.length - i ≤ s.countP fun x => decide (m ≤ x) := by
  have h : (s.drop i).countP (fun x => decide (m ≤ x)) = (s.drop i).length := by
    rw [List.countP_eq_length]
    intro x hx
    obtain ⟨j, hj, rfl⟩ := List.mem_drop_iff_getElem.1 hx
    rw [decide_eq_true_eq]
    refine hm.trans ?_
    rcases Nat.eq_zero_or_pos j with rfl | h
    · simp
    · exact List.pairwise_iff_getElem.1 hs i (i + j) _ (by omega) (by omega)
  have h2 := (List.drop_sublist i s).countP_le (p := fun x => decide (m ≤ x))
  rwa [h, List.length_drop] at h2

namespace laplace

/-- `mle`'s location is a median. -/
theorem mleLoc_eval {xs : List ℝ} (hn : xs ≠ []) : ∃ m : ℝ, mleLoc (xs.map fin) = .ok (fin m) ∧
    xs.length ≤ 2 * (xs.countP fun x => decide (x ≤ m)) ∧ xs.length ≤ 2 * (xs.countP fun x => decide (m ≤ x)) := by
  set s := xs.insertionSort (fun a b => a ≤ b) with hs
  have hp : s.Perm xs := List.perm_insertionSort _ _
  have hw : s.Pairwise (· ≤ ·) := List.pairwise_insertionSort (fun a b : ℝ => a ≤ b) xs
  have hl : s.length = xs.length := hp.length_eq
  have hl0 : 0 < xs.length := List.length_pos_iff.2 hn
  simp only [← hp.countP_eq, ← hl]
  rw [← hl] at hl0
  unfold mleLoc
  rw [py.sorted_fin, ← hs]
  simp only [List.length_map]
  have item : ∀ i : ℕ, (h : i < s.length) → py.item (s.map fin) (i : ℤ) = .ok (fin s[i]) := fun i h => by
    rw [py.item_nat (by simpa using h)]; simp
  rcases Nat.even_or_odd' s.length with ⟨k, hk | hk⟩
  · have h1 : ¬ ((s.length : ℤ) % 2 = 1) := by omega
    have h2 : (s.length : ℤ) / 2 = (k : ℤ) := by omega
    have h3 : (k : ℤ) - 1 = ((k - 1 : ℕ) : ℤ) := by omega
    have hk1 : k - 1 < s.length := by omega
    have hk2 : k < s.length := by omega
    have hle : s[k - 1] ≤ s[k] := List.pairwise_iff_getElem.1 hw _ _ hk1 hk2 (by omega)
    refine ⟨(s[k - 1] + s[k]) / 2, ?_, ?_, ?_⟩
    · simp only [h1, if_false, h2, h3, item _ hk1, item _ hk2, ok_bind, fin_add, ofNat_def,
        fin_div _ (two_ne_zero (α := ℝ)), Nat.cast_ofNat]
    · have := countP_sorted_le hw hk1 (m := (s[k - 1] + s[k]) / 2) (by linarith)
      omega
    · have := countP_sorted_ge hw hk2 (m := (s[k - 1] + s[k]) / 2) (by linarith)
      omega
  · have h1 : ((s.length : ℤ) % 2 = 1) := by omega
    have h2 : (s.length : ℤ) / 2 = (k : ℤ) := by omega
    have hk2 : k < s.length := by omega
    refine ⟨s[k], ?_, ?_, ?_⟩
    · simp only [h1, if_true, h2, item _ hk2]
    · have := countP_sorted_le hw hk2 le_rfl
      omega
    · have := countP_sorted_ge hw hk2 le_rfl
      omega

end laplace

end Mpsci
