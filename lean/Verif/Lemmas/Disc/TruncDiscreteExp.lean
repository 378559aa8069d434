import Verif.Lemmas.Discrete
import Verif.Lemmas.Common
import Verif.Spec.DiscMoments
import Verif.Model.Disc.TruncDiscreteExp

/-! The masses of the truncated discrete exponential distribution. -/

namespace Mpsci.trunc_discrete_exp

open Classical Num Spec Finset

variable {q : ℝ} {n : ℕ}

/-- The geometric sum. -/
noncomputable def G (q : ℝ) (n : ℕ) : ℝ := ∑ j ∈ range n, q ^ j

/-- The mass at `k`. -/
noncomputable def T (q : ℝ) (n k : ℕ) : ℝ := if k < n then q ^ k / G q n else 0

theorem G_pos (hq : 0 < q) (hn : 0 < n) : 0 < G q n :=
  sum_pos (fun j _ => pow_pos hq j) ⟨0, by simpa using hn⟩

theorem G_mul (q : ℝ) (n : ℕ) : (1 - q) * G q n = 1 - q ^ n := by
  rw [G, ← geom_sum_mul_neg]; ring

theorem G_eq (hq : q ≠ 1) (n : ℕ) : G q n = (1 - q ^ n) / (1 - q) := by
  have : 1 - q ≠ 0 := sub_ne_zero.2 hq.symm
  rw [eq_div_iff this, mul_comm, G_mul]

theorem G_one (n : ℕ) : G 1 n = n := by simp [G]

theorem T_pos (hq : 0 < q) {k : ℕ} (h : k < n) : 0 < T q n k := by
  rw [T, if_pos h]; exact div_pos (pow_pos hq k) (G_pos hq (by omega))

theorem T_nonneg (hq : 0 < q) (k : ℕ) : 0 ≤ T q n k := by
  by_cases h : k < n
  · exact (T_pos hq h).le
  · rw [T, if_neg h]

/-- Expected values are finite sums. -/
theorem T_hasSum (φ : ℕ → ℝ) : HasSum (fun k => φ k * T q n k) ((∑ k ∈ range n, φ k * q ^ k) / G q n) := by
  have h : HasSum (fun k => φ k * T q n k) (∑ k ∈ range n, φ k * T q n k) :=
    hasSum_sum_of_ne_finset_zero fun k hk => by rw [T, if_neg (by simpa using hk), mul_zero]
  refine hasSum_of h (fun _ => rfl) ?_
  rw [sum_div]
  refine sum_congr rfl fun k hk => ?_
  rw [T, if_pos (by simpa using hk), mul_div_assoc]

theorem T_sum (hq : 0 < q) (hn : 0 < n) : HasSum (T q n) 1 := by
  have := T_hasSum (q := q) (n := n) fun _ => 1
  simp only [one_mul] at this
  exact hasSum_of this (fun _ => rfl) (div_self (G_pos hq hn).ne').symm

theorem T_upto (q : ℝ) {k n : ℕ} (h : k < n) : ∑ j ∈ range (k + 1), T q n j = G q (k + 1) / G q n := by
  rw [G, sum_div]
  refine sum_congr rfl fun j hj => ?_
  rw [T, if_pos]
  simp at hj; omega

theorem T_ext {φ : ℝ → ℝ} {a : ℝ} (h : HasSum (fun k : ℕ => φ k * T q n k) a) : HasSum (fun k : ℤ => φ k * extZ (T q n) k) a :=
  hasSum_int h (fun k hk => by rw [extZ_neg _ hk, mul_zero]) fun k => by simp

theorem sum1 (q : ℝ) (n : ℕ) : (1 - q) ^ 2 * ∑ k ∈ range n, (k:ℝ) * q ^ k = q - q ^ n * (n * (1 - q) + q) := by
  induction n with
  | zero => simp
  | succ n ih => rw [sum_range_succ, mul_add, ih]; push_cast; ring

theorem sum2 (q : ℝ) (n : ℕ) : (1 - q) ^ 3 * ∑ k ∈ range n, (k:ℝ) * ((k:ℝ) - 1) * q ^ k =
    2 * q ^ 2 - q ^ n * (n * (n - 1) * (1 - q) ^ 2 + 2 * n * q * (1 - q) + 2 * q ^ 2) := by
  induction n with
  | zero => simp
  | succ n ih => rw [sum_range_succ, mul_add, ih]; push_cast; ring

theorem sum1_one (n : ℕ) : ∑ k ∈ range n, (k:ℝ) * 1 ^ k = n * (n - 1) / 2 := by
  induction n with
  | zero => simp
  | succ n ih => rw [sum_range_succ, ih]; push_cast; ring

theorem sum2_one (n : ℕ) : ∑ k ∈ range n, (k:ℝ) * ((k:ℝ) - 1) * 1 ^ k = n * (n - 1) * (n - 2) / 3 := by
  induction n with
  | zero => simp
  | succ n ih => rw [sum_range_succ, ih]; push_cast; ring

end Mpsci.trunc_discrete_exp
