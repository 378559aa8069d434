import Verif.Model.Stats.FisherExact
import Verif.Spec.Fisher
import Mathlib.Data.Nat.Choose.Vandermonde
import Mathlib.Data.Nat.Choose.Basic
import Mathlib.Data.Nat.Factorial.Basic
import Mathlib.Data.Fintype.BigOperators
import Mathlib.Tactic.Linarith
import Mathlib.Tactic.Ring
import Mathlib.Tactic.Positivity

namespace Mpsci.fisherExact

open Classical Spec

/-! ### The binomial coefficient -/

theorem combLoop (n : ℤ) (m : ℕ) :
    (py.range 1 (m + 1)).foldl combStep (n, 1, 1) =
      (n - m, ∏ i ∈ Finset.range m, (n - i), (m.factorial : ℤ)) := by
  induction m with
  | zero => simp [py.range]
  | succ m ih =>
    have e : py.range 1 (((m + 1 : ℕ) : ℤ) + 1) = py.range 1 ((m : ℤ) + 1) ++ [(m : ℤ) + 1] := by
      have h1 : (((m + 1 : ℕ) : ℤ) + 1 - 1).toNat = m + 1 := by omega
      have h2 : ((m : ℤ) + 1 - 1).toNat = m := by omega
      simp only [py.range, h1, h2, List.range_succ, List.map_append, List.map_cons, List.map_nil]
      rw [add_comm 1 (m : ℤ)]
    rw [e, List.foldl_append, ih]
    simp only [List.foldl_cons, List.foldl_nil, combStep, Finset.prod_range_succ,
      Nat.factorial_succ]
    push_cast
    refine Prod.ext ?_ (Prod.ext ?_ ?_) <;> simp only <;> ring

theorem prod_eq_descFactorial (n m : ℕ) (h : m ≤ n) :
    ∏ i ∈ Finset.range m, ((n : ℤ) - i) = (n.descFactorial m : ℤ) := by
  induction m with
  | zero => simp
  | succ m ih =>
    rw [Finset.prod_range_succ, ih (by omega), Nat.descFactorial_succ]
    push_cast [Nat.cast_sub (by omega : m ≤ n)]
    ring

theorem comb_eq (n k : ℕ) : comb n k = (n.choose k : ℤ) := by
  by_cases h : k ≤ n
  · have hm : min (k : ℤ) (n - k) = ((min k (n - k) : ℕ) : ℤ) := by
      rw [Nat.cast_min, Nat.cast_sub h]
    have h1 : (0 : ℤ) ≤ k ∧ (k : ℤ) ≤ n := ⟨by positivity, by exact_mod_cast h⟩
    rw [comb, if_pos h1, hm, combLoop, prod_eq_descFactorial _ _ (by omega)]
    simp only
    rw [Int.fdiv_eq_ediv_of_nonneg _ (by positivity), ← Int.natCast_div,
      ← Nat.choose_eq_descFactorial_div_factorial]
    congr 1
    rcases le_total k (n - k) with h2 | h2
    · rw [min_eq_left h2]
    · rw [min_eq_right h2, Nat.choose_symm h]
  · have h1 : ¬ ((0 : ℤ) ≤ k ∧ (k : ℤ) ≤ n) := by
      rintro ⟨-, h2⟩; exact h (by exact_mod_cast h2)
    rw [comb, if_neg h1, Nat.choose_eq_zero_of_lt (by omega)]; rfl

theorem comb_neg {n k : ℤ} (h : k < 0) : comb n k = 0 := by
  rw [comb, if_neg (by omega)]

/-! ### The hypergeometric weights -/

/-- The number of tables with upper left cell `k`. -/
def w (r0 r1 c0 k : ℕ) : ℕ := r0.choose k * (if k ≤ c0 then r1.choose (c0 - k) else 0)

theorem numCombs_eq (r0 r1 c0 k : ℕ) :
    numCombs k r0 c0 ((r0 : ℤ) + r1) = (w r0 r1 c0 k : ℤ) := by
  have e1 : (k : ℤ) + (r0 - k) = r0 := by ring
  have e2 : (c0 : ℤ) - k + ((r0 : ℤ) + r1 - (k + (r0 - k) + (c0 - k))) = r1 := by ring
  simp only [numCombs, e2, w]
  rw [e1, comb_eq]
  by_cases h : k ≤ c0
  · rw [if_pos h, ← Nat.cast_sub h, comb_eq]; push_cast; rfl
  · rw [if_neg h, comb_neg (by omega)]; simp

theorem w_zero_of_lt {r0 r1 c0 k : ℕ} (h : k + r1 < c0) : w r0 r1 c0 k = 0 := by
  rw [w, if_pos (by omega), Nat.choose_eq_zero_of_lt (by omega : r1 < c0 - k), mul_zero]
theorem w_zero_of_gt {r0 r1 c0 k : ℕ} (h : r0 < k ∨ c0 < k) : w r0 r1 c0 k = 0 := by
  rcases h with h | h
  · rw [w, Nat.choose_eq_zero_of_lt h, zero_mul]
  · rw [w, if_neg (by omega), mul_zero]
theorem w_pos {r0 r1 c0 k : ℕ} (h1 : k ≤ r0) (h2 : k ≤ c0) (h3 : c0 ≤ k + r1) :
    0 < w r0 r1 c0 k := by
  rw [w, if_pos h2]
  exact Nat.mul_pos (Nat.choose_pos h1) (Nat.choose_pos (by omega))

theorem sum_w (r0 r1 c0 : ℕ) : ∑ k ∈ Finset.range (c0 + 1), w r0 r1 c0 k = (r0 + r1).choose c0 := by
  rw [Nat.add_choose_eq, Finset.Nat.sum_antidiagonal_eq_sum_range_succ_mk]
  refine Finset.sum_congr rfl fun k hk => ?_
  rw [Finset.mem_range] at hk
  rw [w, if_pos (by omega)]

/-- The ratio of consecutive weights. -/
theorem w_succ {r0 r1 c0 k : ℕ} (h : c0 ≤ k + r1) (hk : k < c0) :
    w r0 r1 c0 (k + 1) * ((k + 1) * (k + r1 + 1 - c0)) = w r0 r1 c0 k * ((r0 - k) * (c0 - k)) := by
  have h1 : r0.choose (k + 1) * (k + 1) = r0.choose k * (r0 - k) := Nat.choose_succ_right_eq r0 k
  obtain ⟨j, hj⟩ : ∃ j, c0 - k = j + 1 := ⟨c0 - k - 1, by omega⟩
  have h2 : r1.choose (j + 1) * (j + 1) = r1.choose j * (r1 - j) := Nat.choose_succ_right_eq r1 j
  have e1 : c0 - (k + 1) = j := by omega
  have e2 : k + r1 + 1 - c0 = r1 - j := by omega
  rw [w, w, if_pos (by omega), if_pos (by omega), e1, hj, e2]
  calc r0.choose (k + 1) * r1.choose j * ((k + 1) * (r1 - j))
      = (r0.choose (k + 1) * (k + 1)) * (r1.choose j * (r1 - j)) := by ring
    _ = _ := by rw [h1, ← h2]; ring

/-- Once the weights go down they never go up again. -/
theorem w_unimodal {r0 r1 c0 j i : ℕ} (h : w r0 r1 c0 (j + 1) < w r0 r1 c0 j) (hij : j ≤ i) :
    w r0 r1 c0 (i + 1) ≤ w r0 r1 c0 i := by
  by_cases h1 : r0 < i + 1 ∨ c0 < i + 1
  · rw [w_zero_of_gt h1]; exact Nat.zero_le _
  · push Not at h1
    have h3 : c0 ≤ j + r1 := by
      by_contra h'; rw [w_zero_of_lt (by omega : j + r1 < c0)] at h; omega
    have e1 := w_succ (r0 := r0) h3 (by omega)
    have e2 := w_succ (r0 := r0) (k := i) (by omega : c0 ≤ i + r1) (by omega)
    have hB : 0 < (j + 1) * (j + r1 + 1 - c0) := Nat.mul_pos (by omega) (by omega)
    have hAB : (r0 - j) * (c0 - j) < (j + 1) * (j + r1 + 1 - c0) := by
      by_contra h'
      push Not at h'
      have h4 : w r0 r1 c0 (j + 1) * ((j + 1) * (j + r1 + 1 - c0)) <
          w r0 r1 c0 j * ((j + 1) * (j + r1 + 1 - c0)) := Nat.mul_lt_mul_of_pos_right h hB
      have h5 := Nat.mul_le_mul_left (w r0 r1 c0 j) h'
      omega
    have hA : (r0 - i) * (c0 - i) ≤ (r0 - j) * (c0 - j) := Nat.mul_le_mul (by omega) (by omega)
    have hB' : (j + 1) * (j + r1 + 1 - c0) ≤ (i + 1) * (i + r1 + 1 - c0) :=
      Nat.mul_le_mul (by omega) (by omega)
    have h6 : w r0 r1 c0 i * ((r0 - i) * (c0 - i)) ≤
        w r0 r1 c0 i * ((i + 1) * (i + r1 + 1 - c0)) := Nat.mul_le_mul_left _ (by omega)
    rw [← e2] at h6
    exact Nat.le_of_mul_le_mul_right h6 (by omega)

/-- Quasi-concavity of the weights. -/
theorem w_quasiconcave {r0 r1 c0 m k l t : ℕ} (hmk : m ≤ k) (hkl : k ≤ l)
    (hm : t < w r0 r1 c0 m) (hl : t < w r0 r1 c0 l) : t < w r0 r1 c0 k := by
  by_contra hk
  push Not at hk
  have hdesc : ∃ j, m ≤ j ∧ j < k ∧ w r0 r1 c0 (j + 1) < w r0 r1 c0 j := by
    by_contra hno
    push Not at hno
    have : ∀ i, m + i ≤ k → w r0 r1 c0 m ≤ w r0 r1 c0 (m + i) := by
      intro i
      induction i with
      | zero => intro _; exact le_rfl
      | succ i ih => intro hi; exact (ih (by omega)).trans (hno (m + i) (by omega) (by omega))
    have := this (k - m) (by omega)
    rw [Nat.add_sub_cancel' hmk] at this
    omega
  obtain ⟨j, -, hjk, hj⟩ := hdesc
  have hmono : ∀ i, w r0 r1 c0 (k + i) ≤ w r0 r1 c0 k := by
    intro i
    induction i with
    | zero => exact le_rfl
    | succ i ih => exact (w_unimodal (i := k + i) hj (by omega)).trans ih
  have := hmono (l - k)
  rw [Nat.add_sub_cancel' hkl] at this
  omega

/-! ### The scanning loops -/

/-- What a scan does: it stops at the first element above `t`, having added everything before. -/
theorem scan_spec (num : ℤ → ℤ) (t : ℤ) (l : List ℤ) (m : Option ℤ) (count : ℤ) :
    (∃ l1 x l2, l = l1 ++ x :: l2 ∧ (∀ y ∈ l1, num y ≤ t) ∧ t < num x ∧
      scan num t l m count = (some x, count + (l1.map num).sum)) ∨
    ((∀ y ∈ l, num y ≤ t) ∧ scan num t l m count =
      (if h : l = [] then m else some (l.getLast h), count + (l.map num).sum)) := by
  induction l generalizing m count with
  | nil => right; simp [scan]
  | cons a l ih =>
    by_cases ha : num a > t
    · left; exact ⟨[], a, l, rfl, by simp, ha, by simp [scan, ha]⟩
    · rcases ih (some a) (count + num a) with ⟨l1, x, l2, h1, h2, h3, h4⟩ | ⟨h1, h2⟩
      · left
        refine ⟨a :: l1, x, l2, by rw [h1]; rfl, ?_, h3, ?_⟩
        · intro y hy
          rcases List.mem_cons.1 hy with rfl | hy
          · exact not_lt.1 ha
          · exact h2 y hy
        · rw [scan, if_neg ha, h4]; simp [add_assoc]
      · right
        refine ⟨?_, ?_⟩
        · intro y hy
          rcases List.mem_cons.1 hy with rfl | hy
          · exact not_lt.1 ha
          · exact h1 y hy
        · rw [scan, if_neg ha, h2]
          by_cases hl : l = []
          · subst hl; simp
          · simp [hl, add_assoc]

theorem list_sum_all (num : ℤ → ℤ) (P : ℤ → Prop) [DecidablePred P] (l : List ℤ) (h : ∀ x ∈ l, P x) :
    (l.map num).sum = (l.map fun x => if P x then num x else 0).sum := by
  congr 1
  refine List.map_congr_left fun x hx => ?_
  rw [if_pos (h x hx)]
/-- Splitting `range lo hi` at an element. -/
theorem range_split {lo hi : ℤ} {l1 l2 : List ℤ} {x : ℤ} (h : py.range lo hi = l1 ++ x :: l2) :
    l1 = py.range lo x ∧ l2 = py.range (x + 1) hi := by
  have hlen : (hi - lo).toNat = l1.length + (l2.length + 1) := by
    have := congrArg List.length h
    simpa [py.range] using this
  have hx : x = lo + l1.length := by
    have := congrArg (fun l => l[l1.length]?) h
    simp only [py.range, List.getElem?_map, List.getElem?_append_right (le_refl l1.length),
      Nat.sub_self, List.getElem?_cons_zero] at this
    rw [List.getElem?_range (by omega)] at this
    simpa using this.symm
  have h1 : (x - lo).toNat = l1.length := by omega
  have h2 : (hi - (x + 1)).toNat = l2.length := by omega
  constructor
  · have := congrArg (List.take l1.length) h
    rw [List.take_left] at this
    rw [← this, py.range, py.range, h1, ← List.map_take, List.take_range, hlen,
      min_eq_left (by omega)]
  · have := congrArg (List.drop (l1.length + 1)) h
    rw [List.drop_append, List.drop_of_length_le (by omega : l1.length ≤ l1.length + 1), List.nil_append,
      Nat.add_sub_cancel_left, List.drop_succ_cons, List.drop_zero] at this
    rw [← this, py.range, py.range, h2, ← List.map_drop]
    apply List.ext_getElem
    · simp [hlen]; omega
    · intro i h3 h4
      simp
      omega

theorem rangeDown_split {lo hi : ℤ} {l1 l2 : List ℤ} {x : ℤ}
    (h : py.rangeDown hi lo = l1 ++ x :: l2) :
    l1 = py.rangeDown hi x ∧ l2 = py.rangeDown (x - 1) lo := by
  have hlen : (hi - lo).toNat = l1.length + (l2.length + 1) := by
    have := congrArg List.length h
    simpa [py.rangeDown] using this
  have hx : x = hi - l1.length := by
    have := congrArg (fun l => l[l1.length]?) h
    simp only [py.rangeDown, List.getElem?_map, List.getElem?_append_right (le_refl l1.length),
      Nat.sub_self, List.getElem?_cons_zero] at this
    rw [List.getElem?_range (by omega)] at this
    simpa using this.symm
  have h1 : (hi - x).toNat = l1.length := by omega
  have h2 : (x - 1 - lo).toNat = l2.length := by omega
  constructor
  · have := congrArg (List.take l1.length) h
    rw [List.take_left] at this
    rw [← this, py.rangeDown, py.rangeDown, h1, ← List.map_take, List.take_range, hlen,
      min_eq_left (by omega)]
  · have := congrArg (List.drop (l1.length + 1)) h
    rw [List.drop_append, List.drop_of_length_le (by omega : l1.length ≤ l1.length + 1), List.nil_append,
      Nat.add_sub_cancel_left, List.drop_succ_cons, List.drop_zero] at this
    rw [← this, py.rangeDown, py.rangeDown, h2, ← List.map_drop]
    apply List.ext_getElem
    · simp [hlen]; omega
    · intro i h3 h4
      simp
      omega

theorem sum_rangeDown (f : ℤ → ℤ) (lo hi : ℤ) :
    ((py.rangeDown hi lo).map f).sum = ∑ k ∈ Finset.Ioc lo hi, f k := by
  have : (py.rangeDown hi lo).toFinset = Finset.Ioc lo hi := by
    ext k; simp [py.mem_rangeDown]
  rw [← this, List.sum_toFinset f (py.nodup_rangeDown lo hi)]

/-- The two scanning loops together add up `num` over exactly the values not above `t`, for a
quasi-concave `num`. -/
theorem scan_both {num : ℤ → ℤ} {t lo hi : ℤ} (hle : lo ≤ hi)
    (hq : ∀ m k l, lo ≤ m → m ≤ k → k ≤ l → l ≤ hi → t < num m → t < num l → t < num k) :
    ∃ m00 c, scan num t (py.range lo (hi + 1)) none 0 = (some m00, c) ∧
      (scan num t (py.rangeDown hi m00) (some m00) c).2 =
        ∑ k ∈ Finset.Icc lo hi with num k ≤ t, num k := by
  have hsum : ∑ k ∈ Finset.Icc lo hi with num k ≤ t, num k =
      ∑ k ∈ Finset.Icc lo hi, if num k ≤ t then num k else 0 := by rw [Finset.sum_filter]
  rcases scan_spec num t (py.range lo (hi + 1)) none 0 with ⟨l1, x, l2, h1, h2, h3, h4⟩ | ⟨h1, h2⟩
  · refine ⟨x, _, h4, ?_⟩
    obtain ⟨e1, e2⟩ := range_split h1
    have hx : lo ≤ x ∧ x < hi + 1 := by
      rw [← py.mem_range, h1]; simp
    have hl1 : (l1.map num).sum = ∑ k ∈ Finset.Ico lo x, if num k ≤ t then num k else 0 := by
      rw [list_sum_all num (fun k => num k ≤ t) l1 h2, e1, py.sum_range]
    have hsplit : ∑ k ∈ Finset.Icc lo hi, (if num k ≤ t then num k else 0) =
        ∑ k ∈ Finset.Ico lo x, (if num k ≤ t then num k else 0) +
        ∑ k ∈ Finset.Ioc x hi, (if num k ≤ t then num k else 0) := by
      have e : Finset.Icc lo hi = Finset.Ico lo x ∪ ({x} ∪ Finset.Ioc x hi) := by
        ext k; simp; omega
      rw [e, Finset.sum_union, Finset.sum_union, Finset.sum_singleton, if_neg (not_le.2 h3),
        zero_add]
      · simp
      · rw [Finset.disjoint_left]; intro k hk; simp at hk ⊢; omega
    rw [hsum, hsplit, hl1]
    rcases scan_spec num t (py.rangeDown hi x) (some x) (0 + (l1.map num).sum) with
      ⟨m1, y, m2, g1, g2, g3, g4⟩ | ⟨g1, g2⟩
    · obtain ⟨f1, f2⟩ := rangeDown_split g1
      have hy : x < y ∧ y ≤ hi := by
        rw [← py.mem_rangeDown, g1]; simp
      rw [← hl1, g4]
      have hm1 : (m1.map num).sum = ∑ k ∈ Finset.Ioc y hi, if num k ≤ t then num k else 0 := by
        rw [list_sum_all num (fun k => num k ≤ t) m1 g2, f1, sum_rangeDown]
      have e : Finset.Ioc x hi = Finset.Ioc x y ∪ Finset.Ioc y hi := by
        ext k; simp; omega
      have hz : ∑ k ∈ Finset.Ioc x y, (if num k ≤ t then num k else 0) = 0 := by
        refine Finset.sum_eq_zero fun k hk => ?_
        rw [Finset.mem_Ioc] at hk
        rw [if_neg (not_le.2 (hq x k y hx.1 hk.1.le hk.2 hy.2 h3 g3))]
      rw [e, Finset.sum_union, hz, zero_add, zero_add, hm1]
      rw [Finset.disjoint_left]; intro k hk; simp at hk ⊢; omega
    · rw [← hl1, g2]
      have : ((py.rangeDown hi x).map num).sum =
          ∑ k ∈ Finset.Ioc x hi, if num k ≤ t then num k else 0 := by
        rw [list_sum_all num (fun k => num k ≤ t) _ g1, sum_rangeDown]
      simp only [this, zero_add]
  · have hne : py.range lo (hi + 1) ≠ [] := by
      intro h
      have : lo ∈ py.range lo (hi + 1) := py.mem_range.2 ⟨le_rfl, by omega⟩
      rw [h] at this; simp at this
    have hlast : (py.range lo (hi + 1)).getLast hne = hi := by
      rw [List.getLast_eq_getElem]
      simp [py.range]; omega
    rw [dif_neg hne, hlast] at h2
    refine ⟨hi, _, h2, ?_⟩
    have : py.rangeDown hi hi = [] := by simp [py.rangeDown]
    rw [this, hsum]
    simp only [scan, zero_add]
    rw [list_sum_all num (fun k => num k ≤ t) _ h1, py.sum_range]
    refine Finset.sum_congr ?_ fun _ _ => rfl
    ext k; simp

/-! ### Counting subsets -/

theorem tableCount_eq_single (r0 r1 c0 k : ℕ) : tableCount r0 r1 c0 (· = k) = w r0 r1 c0 k := by
  have hset : tableCount r0 r1 c0 (· = k) =
      ((Finset.univ : Finset (Finset (Fin r0) × Finset (Fin r1))).filter
        fun p => p.1.card + p.2.card = c0 ∧ p.1.card = k).card := by
    rw [tableCount]
    refine Finset.card_bij' (fun T _ => (T.toLeft, T.toRight)) (fun p _ => p.1.disjSum p.2) ?_ ?_ ?_ ?_
    · intro T hT
      simpa [Finset.card_toLeft_add_card_toRight] using hT
    · intro p hp
      simpa [Finset.card_disjSum] using hp
    · intro T _; exact Finset.toLeft_disjSum_toRight
    · intro p _; simp
  rw [hset]
  by_cases hk : k ≤ c0
  · have : ((Finset.univ : Finset (Finset (Fin r0) × Finset (Fin r1))).filter
        fun p => p.1.card + p.2.card = c0 ∧ p.1.card = k) =
        (Finset.powersetCard k Finset.univ) ×ˢ (Finset.powersetCard (c0 - k) Finset.univ) := by
      ext p; simp only [Finset.mem_filter, Finset.mem_univ, true_and, Finset.mem_product,
        Finset.mem_powersetCard, Finset.subset_univ]
      omega
    rw [this, Finset.card_product, Finset.card_powersetCard, Finset.card_powersetCard, w, if_pos hk]
    simp
  · rw [w, if_neg hk, mul_zero, Finset.card_eq_zero, Finset.filter_eq_empty_iff]
    intro p _; omega

theorem tableCount_eq (r0 r1 c0 : ℕ) (P : ℕ → Prop) :
    tableCount r0 r1 c0 P = ∑ k ∈ Finset.range (c0 + 1) with P k, w r0 r1 c0 k := by
  rw [tableCount, Finset.card_eq_sum_card_fiberwise (f := fun T => T.toLeft.card)
    (t := (Finset.range (c0 + 1)).filter P)]
  · refine Finset.sum_congr rfl fun k hk => ?_
    rw [← tableCount_eq_single, tableCount, Finset.filter_filter]
    congr 1
    ext T
    simp only [Finset.mem_filter, Finset.mem_univ, true_and]
    rw [Finset.mem_filter] at hk
    constructor
    · rintro ⟨⟨h1, -⟩, h2⟩; exact ⟨h1, h2⟩
    · rintro ⟨h1, h2⟩; exact ⟨⟨h1, by rw [h2]; exact hk.2⟩, h2⟩
  · intro T hT
    simp only [Finset.coe_filter, Finset.mem_univ, true_and, Set.mem_setOf_eq, Finset.mem_range]
      at hT ⊢
    have := Finset.card_toLeft_le (u := T)
    exact ⟨by omega, hT.2⟩

theorem tableCount_true (r0 r1 c0 : ℕ) :
    tableCount r0 r1 c0 (fun _ => True) = (r0 + r1).choose c0 := by
  rw [tableCount_eq, ← sum_w]; simp

theorem tableCount_eq' {r0 r1 c0 N : ℕ} (hN : r0 ≤ N ∨ c0 ≤ N) (P : ℕ → Prop) :
    tableCount r0 r1 c0 P = ∑ k ∈ Finset.range (N + 1), if P k then w r0 r1 c0 k else 0 := by
  rw [tableCount_eq, Finset.sum_filter]
  have key : ∀ A, (r0 ≤ A ∨ c0 ≤ A) → ∑ k ∈ Finset.range (A + 1), (if P k then w r0 r1 c0 k else 0) =
      ∑ k ∈ Finset.range (max A N + 1), if P k then w r0 r1 c0 k else 0 := by
    intro A hA
    refine Finset.sum_subset ?_ fun k _ hk => ?_
    · intro k hk; rw [Finset.mem_range] at hk ⊢; omega
    · rw [Finset.mem_range] at hk
      rw [w_zero_of_gt (by omega), ite_self]
  rw [key c0 (Or.inr le_rfl)]
  have key2 : ∑ k ∈ Finset.range (N + 1), (if P k then w r0 r1 c0 k else 0) =
      ∑ k ∈ Finset.range (max c0 N + 1), if P k then w r0 r1 c0 k else 0 := by
    refine Finset.sum_subset ?_ fun k _ hk => ?_
    · intro k hk; rw [Finset.mem_range] at hk ⊢; omega
    · rw [Finset.mem_range] at hk
      rw [w_zero_of_gt (by omega), ite_self]
  rw [key2]

/-- From a sum over an integer interval to a sum over natural numbers. -/
theorem sum_int_eq {g : ℤ → ℤ} {G : ℕ → ℕ} {lo hi : ℤ} {N : ℕ} (hg : ∀ k : ℕ, g k = (G k : ℤ))
    (hlo : 0 ≤ lo) (hhi : hi ≤ N) (hz : ∀ k : ℕ, k ≤ N → ¬ (lo ≤ k ∧ (k : ℤ) ≤ hi) → G k = 0) :
    ∑ k ∈ Finset.Icc lo hi, g k = ((∑ k ∈ Finset.range (N + 1), G k : ℕ) : ℤ) := by
  have h1 : ((∑ k ∈ Finset.range (N + 1), G k : ℕ) : ℤ) = ∑ k ∈ Finset.Icc (0 : ℤ) N, g k := by
    rw [Nat.cast_sum]
    refine Finset.sum_nbij' (fun k : ℕ => (k : ℤ)) Int.toNat ?_ ?_ ?_ ?_ ?_
    · intro k hk; simp at hk ⊢; omega
    · intro k hk; simp at hk ⊢; omega
    · intro k _; simp
    · intro k hk; simp at hk ⊢; omega
    · intro k _; rw [hg]
  rw [h1]
  refine Finset.sum_subset ?_ fun k hk hk' => ?_
  · intro k hk; simp at hk ⊢; omega
  · simp only [Finset.mem_Icc] at hk hk'
    obtain ⟨n, rfl⟩ := Int.eq_ofNat_of_zero_le hk.1
    rw [hg, hz n (by omega) hk']; rfl

theorem foldl_add (f : ℤ → ℤ) (l : List ℤ) (a : ℤ) :
    l.foldl (fun c m => c + f m) a = a + (l.map f).sum := by
  induction l generalizing a with
  | nil => simp
  | cons x l ih => simp [ih, add_assoc]

/-- `tableProb` with the denominator evaluated. -/
theorem tableProb_eq (r0 r1 c0 : ℕ) (P : ℕ → Prop) :
    tableProb r0 r1 c0 P = (tableCount r0 r1 c0 P : ℚ) / ((r0 + r1).choose c0 : ℚ) := by
  rw [tableProb, tableCount_true]

/-! ### Symmetries -/

theorem w_swap_rows {r0 r1 c0 k : ℕ} (h : k ≤ c0) : w r1 r0 c0 (c0 - k) = w r0 r1 c0 k := by
  rw [w, w, if_pos (by omega), if_pos h, Nat.sub_sub_self h, mul_comm]

theorem w_swap_cols {r0 r1 c0 k : ℕ} (hc : c0 ≤ r0 + r1) (h : k ≤ r0) :
    w r0 r1 (r0 + r1 - c0) (r0 - k) = w r0 r1 c0 k := by
  by_cases h1 : c0 ≤ k + r1
  · by_cases h2 : k ≤ c0
    · rw [w, w, if_pos (by omega), if_pos h2, Nat.choose_symm h]
      congr 1
      have : r0 + r1 - c0 - (r0 - k) = r1 - (c0 - k) := by omega
      rw [this, Nat.choose_symm (by omega)]
    · rw [w_zero_of_gt (Or.inr (by omega) : r0 < k ∨ c0 < k), w_zero_of_lt (by omega)]
  · rw [w_zero_of_lt (by omega : k + r1 < c0), w_zero_of_gt (by omega)]

/-- Transposing the table multiplies all weights by the same constant. -/
theorem w_transpose {r0 r1 c0 c1 k : ℕ} (hc : c0 + c1 = r0 + r1) :
    w r0 r1 c0 k * (c0.factorial * c1.factorial) =
      w c0 c1 r0 k * (r0.factorial * r1.factorial) := by
  by_cases h1 : r0 < k ∨ c0 < k
  · rw [w_zero_of_gt h1, w_zero_of_gt h1.symm]; simp
  · push Not at h1
    by_cases h2 : k + r1 < c0
    · rw [w_zero_of_lt h2, w_zero_of_lt (by omega : k + c1 < r0)]; simp
    · obtain ⟨x, rfl⟩ : ∃ x, r0 = k + x := ⟨r0 - k, by omega⟩
      obtain ⟨y, rfl⟩ : ∃ y, c0 = k + y := ⟨c0 - k, by omega⟩
      obtain ⟨z, rfl⟩ : ∃ z, r1 = y + z := ⟨r1 - y, by omega⟩
      have hc1 : c1 = x + z := by omega
      subst hc1
      have a1 := Nat.add_choose_mul_factorial_mul_factorial k x
      have a2 := Nat.add_choose_mul_factorial_mul_factorial y z
      have a3 := Nat.add_choose_mul_factorial_mul_factorial k y
      have a4 := Nat.add_choose_mul_factorial_mul_factorial x z
      rw [w, w, if_pos (by omega), if_pos (by omega), Nat.add_sub_cancel_left,
        Nat.add_sub_cancel_left, Nat.choose_symm_add (a := k) (b := x),
        Nat.choose_symm_add (a := y) (b := z), Nat.choose_symm_add (a := k) (b := y),
        Nat.choose_symm_add (a := x) (b := z), ← a1, ← a2, ← a3, ← a4]
      ring

theorem tableProb_transpose {r0 r1 c0 c1 : ℕ} (hc : c0 + c1 = r0 + r1) (P : ℕ → Prop) :
    tableProb r0 r1 c0 P = tableProb c0 c1 r0 P := by
  have hN : ∀ P, tableCount r0 r1 c0 P * (c0.factorial * c1.factorial) =
      tableCount c0 c1 r0 P * (r0.factorial * r1.factorial) := by
    intro P
    rw [tableCount_eq' (N := max r0 c0) (by omega), tableCount_eq' (N := max r0 c0) (by omega),
      Finset.sum_mul, Finset.sum_mul]
    refine Finset.sum_congr rfl fun k _ => ?_
    split_ifs
    · exact w_transpose hc
    · simp
  have h1 := hN P
  have h2 := hN fun _ => True
  have p1 : (0:ℚ) < c0.factorial * c1.factorial := by positivity
  have p2 : (0:ℚ) < tableCount r0 r1 c0 fun _ => True := by
    rw [tableCount_true]; exact_mod_cast Nat.choose_pos (by omega)
  have p3 : (0:ℚ) < tableCount c0 c1 r0 fun _ => True := by
    rw [tableCount_true]; exact_mod_cast Nat.choose_pos (by omega)
  have q1 : (tableCount r0 r1 c0 P : ℚ) * (c0.factorial * c1.factorial) =
      tableCount c0 c1 r0 P * (r0.factorial * r1.factorial) := by exact_mod_cast h1
  have q2 : (tableCount r0 r1 c0 (fun _ => True) : ℚ) * (c0.factorial * c1.factorial) =
      tableCount c0 c1 r0 (fun _ => True) * (r0.factorial * r1.factorial) := by exact_mod_cast h2
  have p4 : (0:ℚ) < r0.factorial * r1.factorial := by positivity
  rw [tableProb, tableProb, div_eq_div_iff p2.ne' p3.ne']
  have : (c0.factorial * c1.factorial : ℚ) * (r0.factorial * r1.factorial) ≠ 0 := by positivity
  apply mul_right_cancel₀ this
  calc _ = (tableCount r0 r1 c0 P : ℚ) * (c0.factorial * c1.factorial) *
        (tableCount c0 c1 r0 (fun _ => True) * (r0.factorial * r1.factorial)) := by ring
    _ = _ := by rw [q1, ← q2]; ring

theorem tableCount_swap_rows (r0 r1 c0 : ℕ) (P : ℕ → Prop) :
    tableCount r0 r1 c0 P = tableCount r1 r0 c0 (fun k => P (c0 - k)) := by
  rw [tableCount_eq' (N := c0) (Or.inr le_rfl), tableCount_eq' (N := c0) (Or.inr le_rfl),
    ← Finset.sum_range_reflect]
  refine Finset.sum_congr rfl fun k hk => ?_
  rw [Finset.mem_range] at hk
  have e : c0 + 1 - 1 - k = c0 - k := by omega
  rw [e, ← w_swap_rows (by omega : c0 - k ≤ c0), Nat.sub_sub_self (by omega)]

theorem tableCount_swap_cols {r0 r1 c0 : ℕ} (hc : c0 ≤ r0 + r1) (P : ℕ → Prop) :
    tableCount r0 r1 c0 P = tableCount r0 r1 (r0 + r1 - c0) (fun k => P (r0 - k)) := by
  rw [tableCount_eq' (N := r0) (Or.inl le_rfl), tableCount_eq' (N := r0) (Or.inl le_rfl),
    ← Finset.sum_range_reflect]
  refine Finset.sum_congr rfl fun k hk => ?_
  rw [Finset.mem_range] at hk
  have e : r0 + 1 - 1 - k = r0 - k := by omega
  rw [e, ← w_swap_cols hc (by omega : r0 - k ≤ r0), Nat.sub_sub_self (by omega)]

end Mpsci.fisherExact
