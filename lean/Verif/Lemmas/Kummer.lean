import Verif.Lemmas.NcGamma
import Verif.Base.Hyp1f1

/-! Kummer's transformation `e^(-z) 1F1(a; 1; z) = 1F1(1 - a; 1; -z)`. -/

namespace Mpsci

open Classical Filter Topology

theorem rising_zero (a : ℝ) : rising a 0 = 1 := by simp [rising]
theorem rising_succ (a : ℝ) (k : ℕ) : rising a (k + 1) = rising a k * (a + k) := by simp [rising, Finset.prod_range_succ]
theorem rising_one (k : ℕ) : rising 1 k = k.factorial := by
  induction k with
  | zero => simp [rising_zero]
  | succ k ih => rw [rising_succ, ih, Nat.factorial_succ]; push_cast; ring
theorem rising_pos {a : ℝ} (ha : 0 < a) (k : ℕ) : 0 < rising a k := Finset.prod_pos fun i _ => by positivity
theorem Gamma_rising {a : ℝ} (ha : 0 < a) (k : ℕ) : Real.Gamma (a + k) = Real.Gamma a * rising a k := by
  induction k with
  | zero => simp [rising_zero]
  | succ k ih =>
    rw [rising_succ, Nat.cast_succ, ← add_assoc, Real.Gamma_add_one (by positivity), ih]; ring

/-- generalised binomial coefficients -/
noncomputable def gbin (r : ℝ) (k : ℕ) : ℝ := ∏ i ∈ Finset.range k, (r - i) / (i + 1)

theorem gbin_zero (r : ℝ) : gbin r 0 = 1 := by simp [gbin]
theorem gbin_succ (r : ℝ) (k : ℕ) : (k + 1) * gbin r (k + 1) = (r - k) * gbin r k := by
  have : (k:ℝ) + 1 ≠ 0 := by positivity
  rw [gbin, Finset.prod_range_succ, ← gbin]; field_simp

theorem vandermonde (r s : ℝ) (n : ℕ) : ∑ ij ∈ Finset.antidiagonal n, gbin r ij.1 * gbin s ij.2 = gbin (r + s) n := by
  induction n with
  | zero => simp [gbin_zero]
  | succ n ih =>
    have hn : (n:ℝ) + 1 ≠ 0 := by positivity
    refine mul_left_cancel₀ hn ?_
    rw [gbin_succ, ← ih, Finset.mul_sum, Finset.mul_sum]
    have e1 : ∑ ij ∈ Finset.antidiagonal (n + 1), ((n:ℝ) + 1) * (gbin r ij.1 * gbin s ij.2) =
        (∑ ij ∈ Finset.antidiagonal (n + 1), (ij.1 * gbin r ij.1) * gbin s ij.2) + ∑ ij ∈ Finset.antidiagonal (n + 1), gbin r ij.1 * (ij.2 * gbin s ij.2) := by
      rw [← Finset.sum_add_distrib]
      refine Finset.sum_congr rfl fun ij h => ?_
      have h2 : (ij.1:ℝ) + ij.2 = n + 1 := by exact_mod_cast Finset.mem_antidiagonal.1 h
      rw [← h2]; ring
    rw [e1, Finset.Nat.sum_antidiagonal_succ, Finset.Nat.sum_antidiagonal_succ']
    simp only [Nat.cast_zero, zero_mul, mul_zero, zero_add, Nat.cast_succ, gbin_succ]
    rw [← Finset.sum_add_distrib]
    refine Finset.sum_congr rfl fun ij h => ?_
    have h2 : (ij.1:ℝ) + ij.2 = n := by exact_mod_cast Finset.mem_antidiagonal.1 h
    rw [← h2]; ring

theorem gbin_nat (n k : ℕ) : gbin n k = n.choose k := by
  induction k with
  | zero => simp [gbin_zero]
  | succ k ih =>
    have hk : (k:ℝ) + 1 ≠ 0 := by positivity
    refine mul_left_cancel₀ hk ?_
    rw [gbin_succ, ih]
    rcases le_or_gt k n with h | h
    · have := Nat.choose_succ_right_eq n k
      have h2 : ((n.choose (k + 1) : ℕ) : ℝ) * (k + 1) = n.choose k * (n - k) := by
        rw [← Nat.cast_sub h]; exact_mod_cast this
      linarith
    · rw [Nat.choose_eq_zero_of_lt h, Nat.choose_eq_zero_of_lt (by omega)]; simp
theorem gbin_neg (a : ℝ) (k : ℕ) : rising a k / k.factorial = (-1) ^ k * gbin (-a) k := by
  induction k with
  | zero => simp [gbin_zero, rising_zero]
  | succ k ih =>
    have hk : (k:ℝ) + 1 ≠ 0 := by positivity
    have hf : (k.factorial : ℝ) ≠ 0 := by exact_mod_cast k.factorial_ne_zero
    refine mul_left_cancel₀ hk ?_
    rw [rising_succ, Nat.factorial_succ, pow_succ, show ((k:ℝ) + 1) * ((-1) ^ k * -1 * gbin (-a) (k + 1)) = -(-1) ^ k * (((k:ℝ) + 1) * gbin (-a) (k + 1)) by ring,
      gbin_succ, show -(-1 : ℝ) ^ k * ((-a - k) * gbin (-a) k) = (a + k) * ((-1) ^ k * gbin (-a) k) by ring, ← ih]
    push_cast; field_simp
theorem gbin_reflect (n : ℕ) (a : ℝ) : gbin (n - a) n = rising (1 - a) n / n.factorial := by
  have e : (∏ i ∈ Finset.range n, ((i:ℝ) + 1)) = n.factorial := by
    rw [← rising_one, rising]; exact Finset.prod_congr rfl fun i _ => add_comm _ _
  rw [gbin, Finset.prod_div_distrib, e, rising, ← Finset.prod_range_reflect]
  congr 1
  refine Finset.prod_congr rfl fun i hi => ?_
  have hi' := Finset.mem_range.1 hi
  have : ((n - 1 - i : ℕ) : ℝ) = n - 1 - i := by
    rw [Nat.sub_sub, Nat.cast_sub (by omega)]; push_cast; ring
  rw [this]; ring

theorem kummer_coeff (a : ℝ) (n : ℕ) : ∑ ij ∈ Finset.antidiagonal n, (-1) ^ ij.1 / (ij.1.factorial : ℝ) * (rising a ij.2 / ij.2.factorial / ij.2.factorial) =
    rising (1 - a) n * (-1) ^ n / n.factorial / n.factorial := by
  have hn : (n.factorial : ℝ) ≠ 0 := by exact_mod_cast n.factorial_ne_zero
  refine mul_left_cancel₀ hn ?_
  rw [Finset.mul_sum]
  have e : ∀ ij ∈ Finset.antidiagonal n, (n.factorial : ℝ) * ((-1) ^ ij.1 / (ij.1.factorial : ℝ) * (rising a ij.2 / ij.2.factorial / ij.2.factorial)) =
      (-1) ^ n * (gbin n ij.1 * gbin (-a) ij.2) := fun ij h => by
    have h2 := Finset.mem_antidiagonal.1 h
    have f1 : (ij.1.factorial : ℝ) ≠ 0 := by exact_mod_cast ij.1.factorial_ne_zero
    have f2 : (ij.2.factorial : ℝ) ≠ 0 := by exact_mod_cast ij.2.factorial_ne_zero
    have h3 : (n.choose ij.1 : ℝ) * (ij.1.factorial * ij.2.factorial) = n.factorial := by
      have h6 := Nat.choose_mul_factorial_mul_factorial (n := n) (k := ij.1) (by omega)
      rw [show n - ij.1 = ij.2 by omega] at h6
      rw [← mul_assoc]; exact_mod_cast h6
    rw [gbin_neg, gbin_nat, ← h3]
    have h4 : ((-1 : ℝ)) ^ n = (-1) ^ ij.1 * (-1) ^ ij.2 := by rw [← pow_add, h2]
    rw [h4]; field_simp
  rw [Finset.sum_congr rfl e, ← Finset.mul_sum, vandermonde, ← sub_eq_add_neg, gbin_reflect]
  field_simp

theorem summable_kummer (a z : ℝ) : Summable fun k : ℕ => ‖rising a k / k.factorial / k.factorial * z ^ k‖ := by
  by_cases h0 : ∃ k, rising a k * z ^ k = 0
  · obtain ⟨N, hN⟩ := h0
    have hz : ∀ k, N ≤ k → rising a k * z ^ k = 0 := fun k hk => by
      induction k, hk using Nat.le_induction with
      | base => exact hN
      | succ k _ ih =>
        rw [rising_succ, pow_succ]
        linear_combination (a + k) * z * ih
    refine summable_of_ne_finset_zero (s := Finset.range N) fun k hk => ?_
    have := hz k (by simpa using hk)
    rw [show rising a k / k.factorial / k.factorial * z ^ k = rising a k * z ^ k / k.factorial / k.factorial by ring, this]; simp
  · have h1 : ∀ k, rising a k * z ^ k ≠ 0 := fun k hk => h0 ⟨k, hk⟩
    have hne : ∀ k : ℕ, rising a k / k.factorial / k.factorial * z ^ k ≠ 0 := fun k => by
      have hf : (k.factorial : ℝ) ≠ 0 := by exact_mod_cast k.factorial_ne_zero
      rw [show rising a k / k.factorial / k.factorial * z ^ k = rising a k * z ^ k / k.factorial / k.factorial by ring]
      exact div_ne_zero (div_ne_zero (h1 k) hf) hf
    refine (summable_of_ratio_test_tendsto_lt_one (l := 0) one_pos (Eventually.of_forall hne) ?_).norm
    have e : ∀ k : ℕ, ‖rising a (k + 1) / (k + 1).factorial / (k + 1).factorial * z ^ (k + 1)‖ / ‖rising a k / k.factorial / k.factorial * z ^ k‖ =
        |((a + k) / (k + 1)) * (z / (k + 1))| := fun k => by
      have hf : (k.factorial : ℝ) ≠ 0 := by exact_mod_cast k.factorial_ne_zero
      have hk : (k:ℝ) + 1 ≠ 0 := by positivity
      rw [← norm_div, Real.norm_eq_abs]
      congr 1
      rw [div_eq_iff (hne k), rising_succ, Nat.factorial_succ, pow_succ]; push_cast; field_simp
    simp only [e]
    have t1 : Tendsto (fun k : ℕ => z / ((k:ℝ) + 1)) atTop (𝓝 0) :=
      tendsto_const_nhds.div_atTop (tendsto_atTop_add_const_right _ _ tendsto_natCast_atTop_atTop)
    have t2 : Tendsto (fun k : ℕ => (a + k) / ((k:ℝ) + 1)) atTop (𝓝 1) := by
      have e2 : ∀ k : ℕ, (a + k) / ((k:ℝ) + 1) = 1 + (a - 1) / (k + 1) := fun k => by
        have hk : (k:ℝ) + 1 ≠ 0 := by positivity
        field_simp; ring
      simp only [e2]
      have : Tendsto (fun k : ℕ => (a - 1) / ((k:ℝ) + 1)) atTop (𝓝 0) :=
        tendsto_const_nhds.div_atTop (tendsto_atTop_add_const_right _ _ tendsto_natCast_atTop_atTop)
      simpa using this.const_add 1
    simpa using (t2.mul t1).abs

theorem hyp1f1R_one (a z : ℝ) : hyp1f1R a 1 z = ∑' k : ℕ, rising a k / k.factorial / k.factorial * z ^ k := by
  rw [hyp1f1R]
  refine tsum_congr fun k => ?_
  rw [rising_one]; ring

/-- Kummer's transformation -/
theorem kummer (a z : ℝ) : HasSum (fun k : ℕ => ncg.w z k * (rising a k / k.factorial)) (hyp1f1R (1 - a) 1 (-z)) := by
  have hs := summable_kummer a z
  have he : HasSum (fun k : ℕ => (-1) ^ k / (k.factorial : ℝ) * z ^ k) (Real.exp (-z)) := by
    have e1 : HasSum (fun k : ℕ => (-z) ^ k / k.factorial) (Real.exp (-z)) := by
      rw [Real.exp_eq_exp_ℝ]; exact NormedSpace.expSeries_div_hasSum_exp (-z)
    exact e1.congr_fun' fun k => by rw [neg_pow]; ring
  have hm := tsum_mul_tsum_eq_tsum_sum_antidiagonal_of_summable_norm he.summable.norm hs
  have hc : ∀ n, ∑ kl ∈ Finset.antidiagonal n, ((-1) ^ kl.1 / (kl.1.factorial : ℝ) * z ^ kl.1) * (rising a kl.2 / kl.2.factorial / kl.2.factorial * z ^ kl.2) =
      rising (1 - a) n / n.factorial / n.factorial * (-z) ^ n := fun n => by
    have h5 : ∀ kl ∈ Finset.antidiagonal n, ((-1) ^ kl.1 / (kl.1.factorial : ℝ) * z ^ kl.1) * (rising a kl.2 / kl.2.factorial / kl.2.factorial * z ^ kl.2) =
        ((-1) ^ kl.1 / (kl.1.factorial : ℝ) * (rising a kl.2 / kl.2.factorial / kl.2.factorial)) * z ^ n := fun kl hkl => by
      rw [← Finset.mem_antidiagonal.1 hkl, pow_add]; ring
    rw [Finset.sum_congr rfl h5, ← Finset.sum_mul, kummer_coeff, neg_pow z]; ring
  simp only [hc] at hm
  rw [he.tsum_eq] at hm
  rw [hyp1f1R_one, ← hm]
  refine (hs.of_norm.hasSum.mul_left (Real.exp (-z))).congr_fun' fun k => ?_
  rw [ncg.w]; ring

end Mpsci
