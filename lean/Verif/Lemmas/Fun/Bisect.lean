import Verif.Model.Fun.InvRegIncBeta
import Mathlib.Data.Set.Card
import Mathlib.Order.Interval.Set.UnorderedInterval
import Mathlib.Analysis.SpecificLimits.Basic

namespace Mpsci.fn

open Classical Num Set

variable {G : Set ℝ} {rnd : ℝ → ℝ} {func : Num → M Num} {g : ℝ → ℝ}

/-- The computed midpoint. -/
noncomputable def mid (rnd : ℝ → ℝ) (a b : ℝ) : ℝ := rnd (a + b) / 2

theorem mid_mem (hG : Rounding G rnd) (a b : ℝ) : mid rnd a b ∈ G := hG.half _ (hG.mem _)

theorem mid_uIcc (hG : Rounding G rnd) {a b : ℝ} (ha : a ∈ G) (hb : b ∈ G) :
    mid rnd a b ∈ uIcc a b := by
  unfold mid
  rw [mem_uIcc]
  rcases le_total a b with h | h
  · left
    have h1 := hG.mono (show 2 * a ≤ a + b by linarith)
    have h2 := hG.mono (show a + b ≤ 2 * b by linarith)
    rw [hG.fix _ (hG.dbl _ ha)] at h1
    rw [hG.fix _ (hG.dbl _ hb)] at h2
    constructor <;> linarith
  · right
    have h1 := hG.mono (show 2 * b ≤ a + b by linarith)
    have h2 := hG.mono (show a + b ≤ 2 * a by linarith)
    rw [hG.fix _ (hG.dbl _ hb)] at h1
    rw [hG.fix _ (hG.dbl _ ha)] at h2
    constructor <;> linarith

/-- The result of a successful bisection of `[x0, x1]`: a zero, or one end of a subinterval
across which `g` changes sign and which the rounded midpoint cannot divide. -/
def Found (G : Set ℝ) (rnd : ℝ → ℝ) (g : ℝ → ℝ) (x0 x1 r : ℝ) : Prop :=
  r ∈ G ∧ r ∈ uIcc x0 x1 ∧ (g r = 0 ∨ ∃ a b, a ∈ G ∧ b ∈ G ∧ a ∈ uIcc x0 x1 ∧ b ∈ uIcc x0 x1 ∧
    g a * g b < 0 ∧ mid rnd a b = r ∧ (r = a ∨ r = b))

theorem Found.mono {a b x0 x1 r : ℝ} (h : Found G rnd g a b r) (h2 : uIcc a b ⊆ uIcc x0 x1) :
    Found G rnd g x0 x1 r := by
  obtain ⟨h1, h3, h4⟩ := h
  refine ⟨h1, h2 h3, h4.imp id ?_⟩
  rintro ⟨u, v, a1, a2, a3, a4, a5⟩
  exact ⟨u, v, a1, a2, h2 a3, h2 a4, a5⟩

theorem bisectLoop_step (hG : Rounding G rnd) {x0 x1 : ℝ} (h0 : x0 ∈ G) (h1 : x1 ∈ G)
    (hf : ∀ t ∈ uIcc x0 x1, func (fin t) = .ok (fin (g t))) (hs : g x0 * g x1 < 0) (n : ℕ) :
    bisectLoop rnd func (n + 1) (fin x0) (fin x1) (fin (g x0)) =
      (let m := mid rnd x0 x1
       if g m = 0 ∨ (m = x0 ∨ m = x1) then .ok (fin m)
       else if 0 < g m * g x0 then bisectLoop rnd func n (fin m) (fin x1) (fin (g m))
       else bisectLoop rnd func n (fin x0) (fin m) (fin (g x0))) := by
  have hm := mid_uIcc hG h0 h1
  have hmf : rnd (rnd (x0 + x1) / 2) = mid rnd x0 x1 := hG.fix _ (mid_mem hG x0 x1)
  have hx0 : g x0 ≠ 0 := by rintro h; simp [h] at hs
  simp only [bisectLoop, fin_add, round_fin, ofNat_def, fin_div_ofNat, ok_bind, hmf, hf _ hm,
    zero_def, fin_eq, pure_eq_ok]
  by_cases hz : g (mid rnd x0 x1) = 0
  · simp [hz]
  have hsign : (mp.sign (fin (g (mid rnd x0 x1))) =. mp.sign (fin (g x0))) ↔
      0 < g (mid rnd x0 x1) * g x0 := by
    simp only [mp.sign]
    rcases lt_or_gt_of_ne hz with h | h <;> rcases lt_or_gt_of_ne hx0 with h' | h'
    · simp [h, h', h.not_gt, h'.not_gt, mul_pos_of_neg_of_neg h h']
    · simp only [h, h', h.not_gt, if_true, if_false, one_def, fin_eq,
        (mul_neg_of_neg_of_pos h h').not_gt, iff_false]; norm_num
    · simp only [h, h', h'.not_gt, if_true, if_false, one_def, fin_eq,
        (mul_neg_of_pos_of_neg h h').not_gt, iff_false]; norm_num
    · simp [h, h', mul_pos h h']
  simp only [hsign]

/-- One step, at the level of "terminates with a good result". -/
theorem ends_step (hG : Rounding G rnd) {x0 x1 : ℝ} (h0 : x0 ∈ G) (h1 : x1 ∈ G)
    (hf : ∀ t ∈ uIcc x0 x1, func (fin t) = .ok (fin (g t))) (hs : g x0 * g x1 < 0)
    (hl : ∀ m, m = mid rnd x0 x1 → m ≠ x0 → m ≠ x1 → g m * g x1 < 0 →
      ∃ N r, Found G rnd g m x1 r ∧ ∀ n ≥ N,
        bisectLoop rnd func n (fin m) (fin x1) (fin (g m)) = .ok (fin r))
    (hr : ∀ m, m = mid rnd x0 x1 → m ≠ x0 → m ≠ x1 → g x0 * g m < 0 →
      ∃ N r, Found G rnd g x0 m r ∧ ∀ n ≥ N,
        bisectLoop rnd func n (fin x0) (fin m) (fin (g x0)) = .ok (fin r)) :
    ∃ N r, Found G rnd g x0 x1 r ∧ ∀ n ≥ N,
        bisectLoop rnd func n (fin x0) (fin x1) (fin (g x0)) = .ok (fin r) := by
  have hm := mid_uIcc hG h0 h1
  have hmG := mid_mem hG x0 x1
  have hx0 : g x0 ≠ 0 := by rintro h; simp [h] at hs
  by_cases hA : g (mid rnd x0 x1) = 0 ∨ (mid rnd x0 x1 = x0 ∨ mid rnd x0 x1 = x1)
  · refine ⟨1, mid rnd x0 x1, ⟨hmG, hm, hA.imp id fun h => ?_⟩, fun n hn => ?_⟩
    · exact ⟨x0, x1, h0, h1, left_mem_uIcc, right_mem_uIcc, hs, rfl, h⟩
    · obtain ⟨n, rfl⟩ : ∃ n', n = n' + 1 := ⟨n - 1, by omega⟩
      rw [bisectLoop_step hG h0 h1 hf hs]
      simp [hA]
  · have hA' := hA
    simp only [not_or] at hA
    obtain ⟨a1, a2, a3⟩ := hA
    by_cases hB : 0 < g (mid rnd x0 x1) * g x0
    · have h4 : g (mid rnd x0 x1) * g x1 < 0 := by
        by_contra h
        have := mul_nonneg hB.le (not_lt.1 h)
        have h5 : 0 < g (mid rnd x0 x1) ^ 2 := by positivity
        have : g (mid rnd x0 x1) ^ 2 * (g x0 * g x1) < 0 := mul_neg_of_pos_of_neg h5 hs
        nlinarith
      obtain ⟨N, r, h5, h6⟩ := hl _ rfl a2 a3 h4
      refine ⟨N + 1, r, h5.mono (uIcc_subset_uIcc hm right_mem_uIcc), fun n hn => ?_⟩
      obtain ⟨n, rfl⟩ : ∃ n', n = n' + 1 := ⟨n - 1, by omega⟩
      rw [bisectLoop_step hG h0 h1 hf hs]
      simp only [if_neg hA', if_pos hB]
      exact h6 n (by omega)
    · have h4 : g x0 * g (mid rnd x0 x1) < 0 := by
        rw [mul_comm]
        exact lt_of_le_of_ne (not_lt.1 hB) (mul_ne_zero a1 hx0)
      obtain ⟨N, r, h5, h6⟩ := hr _ rfl a2 a3 h4
      refine ⟨N + 1, r, h5.mono (uIcc_subset_uIcc left_mem_uIcc hm), fun n hn => ?_⟩
      obtain ⟨n, rfl⟩ : ∃ n', n = n' + 1 := ⟨n - 1, by omega⟩
      rw [bisectLoop_step hG h0 h1 hf hs]
      simp only [if_neg hA', if_neg hB]
      exact h6 n (by omega)

/-- Brackets containing finitely many representable numbers. -/
theorem ends_finite (hG : Rounding G rnd) : ∀ (k : ℕ) {x0 x1 : ℝ}, x0 ∈ G → x1 ∈ G →
    (∀ t ∈ uIcc x0 x1, func (fin t) = .ok (fin (g t))) → g x0 * g x1 < 0 →
    (G ∩ uIcc x0 x1).Finite → (G ∩ uIcc x0 x1).ncard ≤ k →
    ∃ N r, Found G rnd g x0 x1 r ∧ ∀ n ≥ N,
        bisectLoop rnd func n (fin x0) (fin x1) (fin (g x0)) = .ok (fin r) := by
  intro k
  induction k with
  | zero =>
    intro x0 x1 h0 h1 hf hs hfin hk
    have : (G ∩ uIcc x0 x1) = ∅ := by
      rw [← Set.ncard_eq_zero hfin]; omega
    exact absurd (show x0 ∈ G ∩ uIcc x0 x1 from ⟨h0, left_mem_uIcc⟩) (by rw [this]; simp)
  | succ k ih =>
    intro x0 x1 h0 h1 hf hs hfin hk
    have hm := mid_uIcc hG h0 h1
    refine ends_step hG h0 h1 hf hs ?_ ?_
    · rintro m rfl a1 a2 a3
      have sub := uIcc_subset_uIcc hm (right_mem_uIcc : x1 ∈ uIcc x0 x1)
      have ss : G ∩ uIcc (mid rnd x0 x1) x1 ⊂ G ∩ uIcc x0 x1 := by
        refine ⟨inter_subset_inter_right _ sub, fun h => ?_⟩
        have := (h ⟨h0, left_mem_uIcc⟩).2
        rw [mem_uIcc] at this hm
        rcases hm with ⟨b1, b2⟩ | ⟨b1, b2⟩ <;> rcases this with ⟨c1, c2⟩ | ⟨c1, c2⟩
        · exact a1 (le_antisymm c1 b1)
        · exact a2 (le_antisymm b2 (by linarith))
        · exact a2 (le_antisymm (by linarith) b1)
        · exact a1 (le_antisymm b2 c2)
      have := Set.ncard_lt_ncard ss hfin
      exact ih (mid_mem hG x0 x1) h1 (fun t ht => hf t (sub ht)) a3 (hfin.subset ss.1) (by omega)
    · rintro m rfl a1 a2 a3
      have sub := uIcc_subset_uIcc (left_mem_uIcc : x0 ∈ uIcc x0 x1) hm
      have ss : G ∩ uIcc x0 (mid rnd x0 x1) ⊂ G ∩ uIcc x0 x1 := by
        refine ⟨inter_subset_inter_right _ sub, fun h => ?_⟩
        have := (h ⟨h1, right_mem_uIcc⟩).2
        rw [mem_uIcc] at this hm
        rcases hm with ⟨b1, b2⟩ | ⟨b1, b2⟩ <;> rcases this with ⟨c1, c2⟩ | ⟨c1, c2⟩
        · exact a2 (le_antisymm b2 c2)
        · exact a1 (le_antisymm (by linarith) b1)
        · exact a1 (le_antisymm b2 (by linarith))
        · exact a2 (le_antisymm c1 b1)
      have := Set.ncard_lt_ncard ss hfin
      exact ih h0 (mid_mem hG x0 x1) (fun t ht => hf t (sub ht)) a3 (hfin.subset ss.1) (by omega)

/-- A bracket that does not contain 0 has finitely many representable numbers. -/
theorem finite_of_not_mem (hG : Rounding G rnd) {x0 x1 : ℝ} (h : (0 : ℝ) ∉ uIcc x0 x1) :
    (G ∩ uIcc x0 x1).Finite := by
  have key : ∃ ε > 0, ∀ t ∈ uIcc x0 x1, ε ≤ |t| := by
    simp only [mem_uIcc, not_or, not_and_or, not_le] at h
    obtain ⟨h1, h2⟩ := h
    rcases h1 with h1 | h1 <;> rcases h2 with h2 | h2
    · refine ⟨min x0 x1, lt_min h1 h2, fun t ht => ?_⟩
      exact ht.1.trans (le_abs_self t)
    · exact absurd h1 h2.not_gt
    · exact absurd h1 h2.not_gt
    · refine ⟨-max x0 x1, by rw [gt_iff_lt, neg_pos]; exact max_lt h2 h1, fun t ht => ?_⟩
      exact (neg_le_neg ht.2).trans (neg_le_abs t)
  obtain ⟨ε, hε, h1⟩ := key
  refine (hG.finite ε (max |x0| |x1|) hε).subset ?_
  rintro t ⟨ht, ht'⟩
  refine ⟨ht, h1 t ht', ?_⟩
  rw [mem_uIcc] at ht'
  rcases ht' with ht' | ht'
  · exact abs_le_max_abs_abs ht'.1 ht'.2
  · rw [max_comm]; exact abs_le_max_abs_abs ht'.1 ht'.2

theorem mid_near (hG : Rounding G rnd) (x0 x1 : ℝ) :
    |mid rnd x0 x1 - (x0 + x1) / 2| ≤ |x0 + x1| / 4 := by
  have := hG.rel (x0 + x1)
  have e : mid rnd x0 x1 - (x0 + x1) / 2 = (rnd (x0 + x1) - (x0 + x1)) / 2 := by unfold mid; ring
  rw [e, abs_div, abs_two]
  linarith

/-- Brackets that contain 0: the width shrinks by a constant factor. -/
theorem ends_near_zero (hG : Rounding G rnd) {ε : ℝ} : ∀ (k : ℕ) {x0 x1 : ℝ}, x0 ∈ G → x1 ∈ G →
    (∀ t ∈ uIcc x0 x1, func (fin t) = .ok (fin (g t))) → g x0 * g x1 < 0 →
    (∀ s ∈ uIcc x0 x1, ∀ t ∈ uIcc x0 x1, |s| < ε → |t| < ε → 0 < g s * g t) →
    |x0 - x1| * (3 / 4) ^ k < ε →
    ∃ N r, Found G rnd g x0 x1 r ∧ ∀ n ≥ N,
        bisectLoop rnd func n (fin x0) (fin x1) (fin (g x0)) = .ok (fin r) := by
  intro k
  induction k with
  | zero =>
    intro x0 x1 h0 h1 hf hs hε hk
    by_cases hz : (0 : ℝ) ∈ uIcc x0 x1
    · exfalso
      rw [pow_zero, mul_one] at hk
      have hb : |x0| ≤ |x0 - x1| ∧ |x1| ≤ |x0 - x1| := by
        rw [mem_uIcc] at hz
        rcases hz with ⟨b1, b2⟩ | ⟨b1, b2⟩
        · rw [abs_of_nonpos b1, abs_of_nonneg b2, abs_of_nonpos (by linarith)]
          constructor <;> linarith
        · rw [abs_of_nonneg b2, abs_of_nonpos b1, abs_of_nonneg (by linarith)]
          constructor <;> linarith
      exact absurd (hε x0 left_mem_uIcc x1 right_mem_uIcc (by linarith) (by linarith)) hs.not_gt
    · exact ends_finite hG _ h0 h1 hf hs (finite_of_not_mem hG hz) le_rfl
  | succ k ih =>
    intro x0 x1 h0 h1 hf hs hε hk
    by_cases hz : (0 : ℝ) ∈ uIcc x0 x1
    · have hm := mid_uIcc hG h0 h1
      have hnear := abs_le.1 (mid_near hG x0 x1)
      have hw : |mid rnd x0 x1 - x1| ≤ |x0 - x1| * (3 / 4) ∧
          |x0 - mid rnd x0 x1| ≤ |x0 - x1| * (3 / 4) := by
        rw [mem_uIcc] at hz
        have hsum : |x0 + x1| ≤ |x0 - x1| := by
          rcases hz with ⟨b1, b2⟩ | ⟨b1, b2⟩
          · rw [abs_of_nonpos (show x0 - x1 ≤ 0 by linarith), abs_le]; constructor <;> linarith
          · rw [abs_of_nonneg (show 0 ≤ x0 - x1 by linarith), abs_le]; constructor <;> linarith
        rcases hz with ⟨b1, b2⟩ | ⟨b1, b2⟩
        · rw [abs_of_nonpos (show x0 - x1 ≤ 0 by linarith)] at hsum ⊢
          constructor <;> rw [abs_le] <;> constructor <;> linarith
        · rw [abs_of_nonneg (show 0 ≤ x0 - x1 by linarith)] at hsum ⊢
          constructor <;> rw [abs_le] <;> constructor <;> linarith
      have hpow : (0 : ℝ) < (3 / 4) ^ k := by positivity
      refine ends_step hG h0 h1 hf hs ?_ ?_
      · rintro m rfl a1 a2 a3
        have sub := uIcc_subset_uIcc hm (right_mem_uIcc : x1 ∈ uIcc x0 x1)
        refine ih (mid_mem hG x0 x1) h1 (fun t ht => hf t (sub ht)) a3
          (fun s hs t ht => hε s (sub hs) t (sub ht)) (lt_of_le_of_lt ?_ hk)
        rw [pow_succ]
        calc _ ≤ |x0 - x1| * (3 / 4) * (3 / 4) ^ k := mul_le_mul_of_nonneg_right hw.1 hpow.le
          _ = _ := by ring
      · rintro m rfl a1 a2 a3
        have sub := uIcc_subset_uIcc (left_mem_uIcc : x0 ∈ uIcc x0 x1) hm
        refine ih h0 (mid_mem hG x0 x1) (fun t ht => hf t (sub ht)) a3
          (fun s hs t ht => hε s (sub hs) t (sub ht)) (lt_of_le_of_lt ?_ hk)
        rw [pow_succ]
        calc _ ≤ |x0 - x1| * (3 / 4) * (3 / 4) ^ k := mul_le_mul_of_nonneg_right hw.2 hpow.le
          _ = _ := by ring
    · exact ends_finite hG _ h0 h1 hf hs (finite_of_not_mem hG hz) le_rfl

end Mpsci.fn
