import Verif.Lemmas.Discrete
import Verif.Model.Disc.BetaBinomial

/-! The beta-binomial masses. -/

namespace Mpsci.betabinomial

open Classical Num Spec Finset

/-- The mass at `k`. -/
noncomputable def W (n : ℕ) (a b : ℝ) (k : ℕ) : ℝ := n.choose k * mp.poch a k * mp.poch b (n - k) / mp.poch (a + b) n

variable {n : ℕ} {a b : ℝ}

theorem poch_pos {x : ℝ} (hx : 0 < x) (i : ℕ) : 0 < mp.poch x i := by
  induction i with
  | zero => exact one_pos
  | succ i ih => exact mul_pos ih (by positivity)

theorem poch_succ' (x : ℝ) (i : ℕ) : mp.poch x (i + 1) = x * mp.poch (x + 1) i := by
  induction i with
  | zero => simp [mp.poch]
  | succ i ih => rw [mp.poch, ih, mp.poch]; push_cast; ring

theorem Gamma_add_nat {x : ℝ} (hx : 0 < x) (i : ℕ) : Real.Gamma (i + x) = mp.poch x i * Real.Gamma x := by
  induction i with
  | zero => simp [mp.poch]
  | succ i ih =>
    have h : (i:ℝ) + x ≠ 0 := by positivity
    rw [show ((i + 1 : ℕ) : ℝ) + x = i + x + 1 by push_cast; ring, Real.Gamma_add_one h, ih, mp.poch]; ring

/-- Vandermonde's identity. -/
theorem vandermonde (n : ℕ) (a b : ℝ) : ∑ k ∈ range (n + 1), (n.choose k : ℝ) * mp.poch a k * mp.poch b (n - k) = mp.poch (a + b) n := by
  induction n with
  | zero => simp [mp.poch]
  | succ n ih =>
    have e1 : ∑ k ∈ range (n + 1 + 1), ((n + 1).choose k : ℝ) * mp.poch a k * mp.poch b (n + 1 - k) =
        ∑ k ∈ range (n + 1), (n.choose k : ℝ) * mp.poch a (k + 1) * mp.poch b (n - k) +
        ∑ k ∈ range (n + 1 + 1), (n.choose k : ℝ) * mp.poch a k * mp.poch b (n + 1 - k) := by
      rw [sum_range_succ', sum_range_succ' (fun k => (n.choose k : ℝ) * mp.poch a k * mp.poch b (n + 1 - k)), ← add_assoc, ← sum_add_distrib]
      congr 1
      · refine sum_congr rfl fun k hk => ?_
        rw [Nat.choose_succ_succ, Nat.add_sub_add_right]; push_cast; ring
      · simp
    have e2 : ∑ k ∈ range (n + 1 + 1), (n.choose k : ℝ) * mp.poch a k * mp.poch b (n + 1 - k) =
        ∑ k ∈ range (n + 1), (n.choose k : ℝ) * mp.poch a k * (mp.poch b (n - k) * (b + (n - k : ℕ))) := by
      rw [sum_range_succ]
      simp only [Nat.choose_succ_self, Nat.cast_zero, zero_mul, add_zero]
      refine sum_congr rfl fun k hk => ?_
      have : k ≤ n := by simpa [Nat.lt_succ_iff] using hk
      rw [show n + 1 - k = n - k + 1 by omega, mp.poch]
    rw [e1, e2, ← sum_add_distrib, mp.poch, ← ih, sum_mul]
    refine sum_congr rfl fun k hk => ?_
    have : k ≤ n := by simpa [Nat.lt_succ_iff] using hk
    rw [Nat.cast_sub this, mp.poch]; ring

theorem W_zero (a b : ℝ) {k : ℕ} (h : n < k) : W n a b k = 0 := by simp [W, Nat.choose_eq_zero_of_lt h]

theorem W_pos (ha : 0 < a) (hb : 0 < b) {k : ℕ} (h : k ≤ n) : 0 < W n a b k := by
  have := Nat.choose_pos h
  have := poch_pos ha k
  have := poch_pos hb (n - k)
  have := poch_pos (add_pos ha hb) n
  unfold W; positivity

theorem W_nonneg (ha : 0 < a) (hb : 0 < b) (k : ℕ) : 0 ≤ W n a b k := by
  rcases le_or_gt k n with h | h
  · exact (W_pos ha hb h).le
  · rw [W_zero a b h]

theorem W_fin (n : ℕ) (a b : ℝ) (φ : ℕ → ℝ) : HasSum (fun k => φ k * W n a b k) (∑ k ∈ range (n + 1), φ k * W n a b k) :=
  hasSum_sum_of_ne_finset_zero fun k hk => by rw [W_zero a b (by simpa [Nat.lt_succ_iff] using hk), mul_zero]

theorem W_sum (ha : 0 < a) (hb : 0 < b) : HasSum (W n a b) 1 := by
  refine hasSum_of (W_fin n a b fun _ => 1) (fun k => (one_mul _).symm) ?_
  simp only [one_mul, W, ← sum_div, vandermonde]
  rw [div_self (poch_pos (add_pos ha hb) n).ne']

theorem W_succ (ha : 0 < a) (hb : 0 < b) (n k : ℕ) : ((k:ℝ) + 1) * W (n + 1) a b (k + 1) = ((n:ℝ) + 1) * a / (a + b) * W n (a + 1) b k := by
  have h1 := (poch_pos (show 0 < a + b + 1 by linarith) n).ne'
  have h2 : a + b ≠ 0 := by positivity
  have h3 : ((k:ℝ) + 1) * ((n + 1).choose (k + 1)) = (n + 1) * n.choose k := by
    have := Nat.add_one_mul_choose_eq n k
    exact_mod_cast (by rw [mul_comm]; exact this.symm)
  unfold W
  rw [Nat.add_sub_add_right, poch_succ', poch_succ', show a + 1 + b = a + b + 1 by ring]
  field_simp
  linear_combination (mp.poch (a + 1) k * mp.poch b (n - k)) * h3

/-- Shift of a sum weighted with `k`. -/
theorem W_shift (ha : 0 < a) (hb : 0 < b) (n : ℕ) {φ : ℝ → ℝ} {S : ℝ} (h : HasSum (fun k : ℕ => φ (k + 1) * W n (a + 1) b k) S) :
    HasSum (fun k : ℕ => (k:ℝ) * φ k * W (n + 1) a b k) (((n:ℝ) + 1) * a / (a + b) * S) := by
  rw [← hasSum_nat_add_iff' 1]
  refine hasSum_of (h.mul_left (((n:ℝ) + 1) * a / (a + b))) (fun k => ?_) (by simp)
  have := W_succ ha hb n k
  push_cast
  linear_combination φ (k + 1) * this

theorem W_n_zero (φ : ℝ → ℝ) : HasSum (fun k : ℕ => (k:ℝ) * φ k * W 0 a b k) 0 := by
  refine hasSum_of (W_fin 0 a b fun k => k * φ k) (fun _ => rfl) (by simp)

theorem W_mean (ha : 0 < a) (hb : 0 < b) (n : ℕ) : HasSum (fun k : ℕ => (k:ℝ) * W n a b k) (n * a / (a + b)) := by
  cases n with
  | zero => exact hasSum_of (W_n_zero fun _ => 1) (fun k => by ring) (by simp)
  | succ n =>
    exact hasSum_of (W_shift ha hb n (φ := fun _ => 1) (hasSum_of (W_sum (n := n) (show 0 < a + 1 by linarith) hb) (fun k => one_mul _) rfl)) (fun k => by ring)
      (by push_cast; ring)

theorem W_mean2 (ha : 0 < a) (hb : 0 < b) (n : ℕ) :
    HasSum (fun k : ℕ => (k:ℝ) * ((k:ℝ) - 1) * W n a b k) (n * (n - 1) * (a * (a + 1)) / ((a + b) * (a + b + 1))) := by
  cases n with
  | zero => exact hasSum_of (W_n_zero fun k => k - 1) (fun k => by ring) (by simp)
  | succ n =>
    have h1 : a + b ≠ 0 := by positivity
    have h2 : a + b + 1 ≠ 0 := by positivity
    refine hasSum_of (W_shift ha hb n (φ := fun k => k - 1) (hasSum_of (W_mean (show 0 < a + 1 by linarith) hb n) (fun k => by ring) rfl)) (fun k => by ring) ?_
    rw [show a + 1 + b = a + b + 1 by ring]
    push_cast; field_simp; ring

theorem W_mean3 (ha : 0 < a) (hb : 0 < b) (n : ℕ) :
    HasSum (fun k : ℕ => (k:ℝ) * ((k:ℝ) - 1) * ((k:ℝ) - 2) * W n a b k)
      (n * (n - 1) * (n - 2) * (a * (a + 1) * (a + 2)) / ((a + b) * (a + b + 1) * (a + b + 2))) := by
  cases n with
  | zero => exact hasSum_of (W_n_zero fun k => (k - 1) * (k - 2)) (fun k => by ring) (by simp)
  | succ n =>
    have h1 : a + b ≠ 0 := by positivity
    have h2 : a + b + 1 ≠ 0 := by positivity
    have h3 : a + b + 2 ≠ 0 := by positivity
    refine hasSum_of (W_shift ha hb n (φ := fun k => (k - 1) * (k - 2)) (hasSum_of (W_mean2 (show 0 < a + 1 by linarith) hb n) (fun k => by ring) rfl))
      (fun k => by ring) ?_
    rw [show a + 1 + b = a + b + 1 by ring, show a + b + 1 + 1 = a + b + 2 by ring, show a + 1 + 1 = a + 2 by ring]
    push_cast; field_simp; ring

theorem W_mean4 (ha : 0 < a) (hb : 0 < b) (n : ℕ) :
    HasSum (fun k : ℕ => (k:ℝ) * ((k:ℝ) - 1) * ((k:ℝ) - 2) * ((k:ℝ) - 3) * W n a b k)
      (n * (n - 1) * (n - 2) * (n - 3) * (a * (a + 1) * (a + 2) * (a + 3)) / ((a + b) * (a + b + 1) * (a + b + 2) * (a + b + 3))) := by
  cases n with
  | zero => exact hasSum_of (W_n_zero fun k => (k - 1) * (k - 2) * (k - 3)) (fun k => by ring) (by simp)
  | succ n =>
    have h1 : a + b ≠ 0 := by positivity
    have h2 : a + b + 1 ≠ 0 := by positivity
    have h3 : a + b + 2 ≠ 0 := by positivity
    have h4 : a + b + 3 ≠ 0 := by positivity
    refine hasSum_of (W_shift ha hb n (φ := fun k => (k - 1) * (k - 2) * (k - 3)) (hasSum_of (W_mean3 (show 0 < a + 1 by linarith) hb n) (fun k => by ring) rfl))
      (fun k => by ring) ?_
    rw [show a + 1 + b = a + b + 1 by ring, show a + b + 1 + 1 = a + b + 2 by ring, show a + b + 1 + 2 = a + b + 3 by ring,
      show a + 1 + 1 = a + 2 by ring, show a + 1 + 2 = a + 3 by ring]
    push_cast; field_simp; ring

theorem W_ratio (ha : 0 < a) (hb : 0 < b) {k : ℕ} (h : k < n) :
    ((k:ℝ) + 1) * (n - k - 1 + b) * W n a b (k + 1) = (n - k) * (a + k) * W n a b k := by
  have h1 := (poch_pos (add_pos ha hb) n).ne'
  obtain ⟨m, rfl⟩ : ∃ m, n = k + m + 1 := ⟨n - k - 1, by omega⟩
  have h3 : (((k + m + 1).choose (k + 1) : ℕ) : ℝ) * (k + 1) = (k + m + 1).choose k * (m + 1) := by
    have := Nat.choose_succ_right_eq (k + m + 1) k
    rw [show k + m + 1 - k = m + 1 by omega] at this
    exact_mod_cast this
  unfold W
  generalize mp.poch (a + b) (k + m + 1) = D at h1 ⊢
  rw [show k + m + 1 - (k + 1) = m by omega, show k + m + 1 - k = m + 1 by omega, mp.poch, mp.poch]
  push_cast
  rw [mul_div_assoc', mul_div_assoc']
  congr 1
  linear_combination (mp.poch a k * (a + k) * mp.poch b m * (b + m)) * h3

/-- The mass as the exponential of what `logpmf` computes. -/
theorem W_eq (ha : 0 < a) (hb : 0 < b) {k : ℕ} (h : k ≤ n) : W n a b k = n.choose k * betaFn (k + a) ((n - k : ℕ) + b) / betaFn a b := by
  have hG1 := (Real.Gamma_pos_of_pos ha).ne'
  have hG2 := (Real.Gamma_pos_of_pos hb).ne'
  have hG3 := (Real.Gamma_pos_of_pos (add_pos ha hb)).ne'
  have h1 := (poch_pos (add_pos ha hb) n).ne'
  unfold W betaFn
  rw [Gamma_add_nat ha, Gamma_add_nat hb, show (k:ℝ) + a + ((n - k : ℕ) + b) = n + (a + b) by rw [Nat.cast_sub h]; ring, Gamma_add_nat (add_pos ha hb)]
  field_simp

end Mpsci.betabinomial
