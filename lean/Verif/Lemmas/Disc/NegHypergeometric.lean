import Verif.Model.Disc.NegHypergeometric
import Verif.Lemmas.Disc.Hypergeometric

/-! Sums of negative hypergeometric probabilities. -/

namespace Mpsci.negative_hypergeometric

open Classical Num Finset fisherExact hypergeometric

/-- The number of arrangements with `k` good items before the bad item number `s + 1`; `K` good items,
`s + 1 + b` bad ones. -/
def A (s b K k : ℕ) : ℕ := if k ≤ K then (k + s).choose k * (b + K - k).choose (K - k) else 0

/-- The telescoping function. -/
def g (m L B i : ℕ) : ℕ := m.choose i * (if i + 1 ≤ B then L.choose (B - i - 1) else 0)

theorem w_step (m L B i : ℕ) :
    w (m + 1) L B (i + 1) + g m L B (i + 1) = w m (L + 1) B (i + 1) + g m L B i := by
  rcases lt_trichotomy (i + 1) B with h | h | h
  · obtain ⟨c, rfl⟩ := Nat.exists_eq_add_of_lt h
    have e1 : i + 1 + c + 1 - (i + 1) = c + 1 := by omega
    have e2 : i + 1 + c + 1 - i - 1 = c + 1 := by omega
    simp only [w, g, show i + 1 ≤ i + 1 + c + 1 by omega, show i + 1 + 1 ≤ i + 1 + c + 1 by omega, if_true,
      e1, e2, Nat.add_sub_cancel, Nat.choose_succ_succ']
    ring
  · subst h
    simp only [w, g, le_refl, if_true, show ¬ i + 1 + 1 ≤ i + 1 by omega, if_false, Nat.sub_self,
      Nat.choose_zero_right, show i + 1 - i - 1 = 0 by omega, Nat.choose_succ_succ]
    ring
  · simp [w, g, show ¬ i + 1 ≤ B by omega, show ¬ i + 1 + 1 ≤ B by omega]

theorem w_tele (m L B s n : ℕ) :
    ∑ i ∈ range n, w (m + 1) L B (s + 1 + i) + g m L B (s + n) =
      ∑ i ∈ range n, w m (L + 1) B (s + 1 + i) + g m L B s := by
  induction n with
  | zero => simp
  | succ n ih =>
    have h := w_step m L B (s + n)
    rw [sum_range_succ, sum_range_succ, show s + 1 + n = s + n + 1 by ring,
      show s + (n + 1) = s + n + 1 by ring]
    omega

theorem g_eq_A {s b K k : ℕ} (h : k + 1 ≤ K) :
    g (k + s + 1) (b + K - (k + 1)) (s + 1 + b) s = A s b K (k + 1) := by
  obtain ⟨q, rfl⟩ := Nat.exists_eq_add_of_le h
  have e : (k + s + 1).choose s = (k + 1 + s).choose (k + 1) := by
    rw [show k + s + 1 = k + 1 + s by ring, Nat.choose_symm_add]
  have e2 : (b + q).choose b = (b + q).choose q := Nat.choose_symm_add
  rw [g, A, if_pos (by omega), if_pos h, show s + 1 + b - s - 1 = b by omega,
    show b + (k + 1 + q) - (k + 1) = b + q by omega, show k + 1 + q - (k + 1) = q by omega, e, e2]

/-- The number of arrangements with at most `k` good items before the bad item number `s + 1`. -/
theorem A_sum {s b K : ℕ} : ∀ k ≤ K, ∑ j ∈ range (k + 1), A s b K j =
    ∑ i ∈ range (b + 1), w (k + s + 1) (b + K - k) (s + 1 + b) (s + 1 + i) := by
  intro k
  induction k with
  | zero =>
    intro _
    rw [sum_range_succ, sum_range_zero, zero_add, sum_range_succ', sum_eq_zero]
    · have : (b + K).choose b = (b + K).choose K := Nat.choose_symm_add
      simp [A, w, show s + 1 + b - (s + 1) = b by omega, this]
    · intro i _
      exact w_zero_of_gt (Or.inl (by omega))
  | succ k ih =>
    intro hk
    rw [sum_range_succ, ih (by omega)]
    have t := w_tele (k + s + 1) (b + K - (k + 1)) (s + 1 + b) s (b + 1)
    have z : g (k + s + 1) (b + K - (k + 1)) (s + 1 + b) (s + (b + 1)) = 0 := by
      simp [g, show ¬ s + (b + 1) + 1 ≤ s + 1 + b by omega]
    rw [z, add_zero, g_eq_A hk, show b + K - (k + 1) + 1 = b + K - k by omega] at t
    rw [← t, show k + s + 1 + 1 = k + 1 + s + 1 by ring]

theorem A_total (s b K : ℕ) :
    ∑ j ∈ range (K + 1), A s b K j = (K + (s + 1 + b)).choose K := by
  rw [A_sum K le_rfl, show b + K - K = b by omega]
  have h := sum_w (r0 := K + s + 1) (r1 := b) (c0 := s + 1 + b)
  have h2 : (K + (s + 1 + b)).choose K = (K + s + 1 + b).choose (s + 1 + b) := by
    rw [Nat.choose_symm_add]; congr 1; ring
  rw [h2, ← h, ← sum_range_add_sum_Ico _ (show s + 1 ≤ s + 1 + b + 1 by omega),
    sum_eq_zero (s := range (s + 1)) (fun i hi => w_zero_of_lt (by have := mem_range.1 hi; omega)),
    zero_add, sum_Ico_eq_sum_range, show s + 1 + b + 1 - (s + 1) = b + 1 by omega]

theorem A_succ (s b K k : ℕ) : (k + 1) * A s b (K + 1) (k + 1) = (s + 1) * A (s + 1) b K k := by
  by_cases h : k ≤ K
  · have e := Nat.choose_succ_right_eq (k + 1 + s) k
    rw [show k + 1 + s - k = s + 1 by omega] at e
    rw [A, A, if_pos h, if_pos (by omega), show b + (K + 1) - (k + 1) = b + K - k by omega,
      show K + 1 - (k + 1) = K - k by omega, show k + (s + 1) = k + 1 + s by ring]
    calc (k + 1) * ((k + 1 + s).choose (k + 1) * (b + K - k).choose (K - k)) =
        ((k + 1 + s).choose (k + 1) * (k + 1)) * (b + K - k).choose (K - k) := by ring
      _ = _ := by rw [e]; ring
  · simp [A, h]

theorem A_ratio {s b K k : ℕ} (h : k < K) :
    A s b K (k + 1) * ((k + 1) * (b + K - k)) = A s b K k * ((k + s + 1) * (K - k)) := by
  obtain ⟨q, rfl⟩ := Nat.exists_eq_add_of_lt h
  have e1 := Nat.add_one_mul_choose_eq (k + s) k
  have e2 := Nat.add_one_mul_choose_eq (b + q) q
  rw [A, A, if_pos (by omega), if_pos (by omega), show b + (k + q + 1) - (k + 1) = b + q by omega,
    show k + q + 1 - (k + 1) = q by omega, show b + (k + q + 1) - k = b + q + 1 by omega,
    show k + q + 1 - k = q + 1 by omega, show k + 1 + s = k + s + 1 by ring]
  calc (k + s + 1).choose (k + 1) * (b + q).choose q * ((k + 1) * (b + q + 1)) =
      ((k + s + 1).choose (k + 1) * (k + 1)) * ((b + q + 1) * (b + q).choose q) := by ring
    _ = _ := by rw [← e1, e2]; ring

theorem A_zero {s b K k : ℕ} (h : K < k) : A s b K k = 0 := if_neg (by omega)

theorem A_pos {s b K k : ℕ} (h : k ≤ K) : 0 < A s b K k := by
  rw [A, if_pos h]
  exact Nat.mul_pos (Nat.choose_pos (by omega)) (Nat.choose_pos (by omega))

/-- The negative hypergeometric probabilities: `K` good items, `s + 1 + b` bad ones, stopping at the bad
item number `s + 1`. -/
noncomputable def Q (s b K k : ℕ) : ℝ := (A s b K k : ℝ) / (K + (s + 1 + b)).choose K

variable {s b K k : ℕ}

theorem C_pos (s b K : ℕ) : (0:ℝ) < (K + (s + 1 + b)).choose K := choose_posR (by omega)

theorem Q_nonneg : 0 ≤ Q s b K k := by unfold Q; positivity
theorem Q_zero (h : K < k) : Q s b K k = 0 := by simp [Q, A_zero h]
theorem Q_pos (h : k ≤ K) : 0 < Q s b K k := div_pos (by exact_mod_cast A_pos h) (C_pos s b K)

theorem Q_finset (c : ℕ → ℝ) :
    HasSum (fun k => c k * Q s b K k) (∑ k ∈ range (K + 1), c k * Q s b K k) :=
  hasSum_sum_of_ne_finset_zero fun k hk => by
    rw [Q_zero (by simpa using hk), mul_zero]

theorem Q_sum (s b K : ℕ) : HasSum (Q s b K) 1 := by
  have := Q_finset (s := s) (b := b) (K := K) fun _ => 1
  simp only [one_mul] at this
  have e : ∑ k ∈ range (K + 1), Q s b K k = 1 := by
    unfold Q
    rw [← sum_div, ← Nat.cast_sum, A_total, div_self (C_pos s b K).ne']
  rwa [e] at this

/-- The cumulated probabilities are tails of a hypergeometric distribution. -/
theorem Q_sum_le (hk : k ≤ K) : HasSum (fun i : ℕ => H (s + 1 + b) K (k + s + 1) (s + 1 + i))
    (∑ j ∈ range (k + 1), Q s b K j) := by
  have e : (∑ j ∈ range (k + 1), Q s b K j) =
      ∑ i ∈ range (b + 1), H (s + 1 + b) K (k + s + 1) (s + 1 + i) := by
    unfold Q
    rw [← sum_div, ← Nat.cast_sum, A_sum k hk, Nat.cast_sum, sum_div]
    refine sum_congr rfl fun i _ => ?_
    rw [H_transpose (by omega), show s + 1 + b + K - (k + s + 1) = b + K - k by omega,
      show K + (s + 1 + b) = s + 1 + b + K by ring]
    congr 2
    rw [Nat.choose_symm_add]
  rw [e]
  refine hasSum_sum_of_ne_finset_zero fun i hi => ?_
  exact H_zero (w_zero_of_gt (Or.inl (by rw [mem_range] at hi; omega)))

theorem Q_succ (s b K k : ℕ) : ((k:ℝ) + 1) * Q s b (K + 1) (k + 1) =
    (s + 1) * (K + 1) / (s + b + 2) * Q (s + 1) b K k := by
  have h : ((k:ℝ) + 1) * A s b (K + 1) (k + 1) = (s + 1) * A (s + 1) b K k := by
    exact_mod_cast A_succ s b K k
  have c1 := C_pos s b (K + 1)
  have c2 := C_pos (s + 1) b K
  have c3 : ((K + 1 + (s + 1 + b)).choose (K + 1) : ℝ) * (K + 1) =
      (K + (s + 1 + 1 + b)).choose K * (s + b + 2) := by
    have := Nat.choose_succ_right_eq (K + 1 + (s + 1 + b)) K
    rw [show K + 1 + (s + 1 + b) - K = s + b + 2 by omega] at this
    rw [show K + (s + 1 + 1 + b) = K + 1 + (s + 1 + b) by ring]
    exact_mod_cast this
  have d : (0:ℝ) < s + b + 2 := by positivity
  have d2 : (0:ℝ) < (K:ℝ) + 1 := by positivity
  have c4 : ((K + 1 + (s + 1 + b)).choose (K + 1) : ℝ) =
      (K + (s + 1 + 1 + b)).choose K * (s + b + 2) / (K + 1) := by
    rw [eq_div_iff d2.ne']; exact c3
  rw [Q, Q, c4, mul_div_assoc', h]
  field_simp

theorem Q_mean (s b K : ℕ) :
    HasSum (fun k : ℕ => (k:ℝ) * Q s b K k) ((s + 1) * K / (s + b + 2)) := by
  rcases K with _ | K
  · refine hasSum_of hasSum_zero (fun k => ?_) (by simp)
    rcases k with _ | k
    · simp
    · rw [Q_zero (by omega), mul_zero]
  · rw [← hasSum_nat_add_iff' 1]
    refine hasSum_of ((Q_sum (s + 1) b K).mul_left (((s:ℝ) + 1) * (K + 1) / (s + b + 2))) (fun k => ?_) ?_
    · push_cast; exact Q_succ s b K k
    · simp

theorem Q_mean2 (s b K : ℕ) :
    HasSum (fun k : ℕ => (k:ℝ) * ((k:ℝ) - 1) * Q s b K k)
      ((s + 1) * (s + 2) * K * (K - 1) / ((s + b + 2) * (s + b + 3))) := by
  rcases K with _ | K
  · refine hasSum_of hasSum_zero (fun k => ?_) (by simp)
    rcases k with _ | k
    · simp
    · rw [Q_zero (by omega), mul_zero]
  · rw [← hasSum_nat_add_iff' 1]
    refine hasSum_of ((Q_mean (s + 1) b K).mul_left (((s:ℝ) + 1) * (K + 1) / (s + b + 2))) (fun k => ?_) ?_
    · have := Q_succ s b K k
      push_cast
      calc ((k:ℝ) + 1) * (k + 1 - 1) * Q s b (K + 1) (k + 1) =
          k * (((k:ℝ) + 1) * Q s b (K + 1) (k + 1)) := by ring
        _ = _ := by rw [this]; ring
    · simp only [range_one, sum_singleton, Nat.cast_zero, zero_mul, sub_zero]
      have d : (0:ℝ) < s + b + 2 := by positivity
      have d2 : (0:ℝ) < s + b + 3 := by positivity
      push_cast
      rw [show (s:ℝ) + 1 + b + 2 = s + b + 3 by ring]
      field_simp
      ring

theorem Q_ratio (h : k < K) :
    Q s b K (k + 1) * (((k:ℝ) + 1) * (b + K - k)) = Q s b K k * ((k + s + 1) * (K - k)) := by
  have e := A_ratio (s := s) (b := b) h
  have h1 : ((b + K - k : ℕ) : ℝ) = b + K - k := by rw [Nat.cast_sub (by omega)]; push_cast; ring
  have h2 : ((K - k : ℕ) : ℝ) = K - k := Nat.cast_sub h.le
  have e' : (A s b K (k + 1) : ℝ) * (((k:ℝ) + 1) * (b + K - k)) =
      A s b K k * ((k + s + 1) * (K - k)) := by
    rw [← h1, ← h2]; exact_mod_cast e
  have c := (C_pos s b K).ne'
  rw [Q, Q, div_mul_eq_mul_div, div_mul_eq_mul_div, e']

end Mpsci.negative_hypergeometric
