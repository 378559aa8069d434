import Verif.Model.Disc.Hypergeometric
import Verif.Lemmas.Discrete
import Verif.Lemmas.Stats.FisherExact

/-! Sums of hypergeometric probabilities. -/

namespace Mpsci.hypergeometric

open Classical Num Finset fisherExact

/-- The hypergeometric probabilities: `K` good and `M` bad items, `n` draws. -/
noncomputable def H (K M n k : ℕ) : ℝ := (w K M n k : ℝ) / (K + M).choose n

variable {K M n k : ℕ}

theorem H_nonneg : 0 ≤ H K M n k := by unfold H; positivity

theorem H_zero (h : w K M n k = 0) : H K M n k = 0 := by simp [H, h]

theorem choose_posR {N n : ℕ} (h : n ≤ N) : (0:ℝ) < N.choose n := by
  exact_mod_cast Nat.choose_pos h

theorem H_pos (hn : n ≤ K + M) (h1 : k ≤ K) (h2 : k ≤ n) (h3 : n ≤ k + M) : 0 < H K M n k :=
  div_pos (by exact_mod_cast w_pos h1 h2 h3) (choose_posR hn)

theorem H_finset (c : ℕ → ℝ) :
    HasSum (fun k => c k * H K M n k) (∑ k ∈ range (n + 1), c k * H K M n k) :=
  hasSum_sum_of_ne_finset_zero fun k hk => by
    rw [H_zero (w_zero_of_gt (Or.inr (by simpa using hk))), mul_zero]

theorem H_sum (hn : n ≤ K + M) : HasSum (H K M n) 1 := by
  have := H_finset (K := K) (M := M) (n := n) fun _ => 1
  simp only [one_mul] at this
  have e : ∑ k ∈ range (n + 1), H K M n k = 1 := by
    unfold H
    rw [← sum_div, ← Nat.cast_sum, sum_w, div_self (choose_posR hn).ne']
  rwa [e] at this

theorem H_succ (hn : n ≤ K + M) (k : ℕ) :
    ((k:ℝ) + 1) * H (K + 1) M (n + 1) (k + 1) =
      ((n:ℝ) + 1) * (K + 1) / (K + M + 1) * H K M n k := by
  have h1 : (k + 1) * w (K + 1) M (n + 1) (k + 1) = (K + 1) * w K M n k := by
    have := Nat.add_one_mul_choose_eq K k
    unfold w
    by_cases h : k ≤ n
    · rw [if_pos h, if_pos (by omega), Nat.add_sub_add_right]
      calc (k + 1) * ((K + 1).choose (k + 1) * M.choose (n - k))
          = ((K + 1).choose (k + 1) * (k + 1)) * M.choose (n - k) := by ring
        _ = _ := by rw [← this]; ring
    · rw [if_neg h, if_neg (by omega)]; simp
  have h2 : (K + M + 1) * (K + M).choose n = (K + 1 + M).choose (n + 1) * (n + 1) := by
    have := Nat.add_one_mul_choose_eq (K + M) n
    rw [this, show K + 1 + M = K + M + 1 by ring]
  have h1' : ((k:ℝ) + 1) * w (K + 1) M (n + 1) (k + 1) = (K + 1) * w K M n k := by exact_mod_cast h1
  have h2' : ((K:ℝ) + M + 1) * (K + M).choose n = (K + 1 + M).choose (n + 1) * (n + 1) := by
    exact_mod_cast h2
  have c1 := choose_posR hn
  have c2 := choose_posR (show n + 1 ≤ K + 1 + M by omega)
  have c3 : (0:ℝ) < K + M + 1 := by positivity
  unfold H
  rw [div_mul_div_comm, mul_div_assoc', h1', div_eq_div_iff c2.ne' (by positivity)]
  linear_combination (-(K + 1) * w K M n k * (-1) : ℝ) * h2'

theorem H_mean (hn : n ≤ K + M) (hN : 0 < K + M) :
    HasSum (fun k : ℕ => (k:ℝ) * H K M n k) (n * K / (K + M)) := by
  rcases K with _ | K
  · refine hasSum_of hasSum_zero (fun k => ?_) (by simp)
    rcases k with _ | k
    · simp
    · rw [H_zero (w_zero_of_gt (Or.inl (by omega))), mul_zero]
  rcases n with _ | n
  · refine hasSum_of hasSum_zero (fun k => ?_) (by simp)
    rcases k with _ | k
    · simp
    · rw [H_zero (w_zero_of_gt (Or.inr (by omega))), mul_zero]
  rw [← hasSum_nat_add_iff' 1]
  simp only [sum_range_one, Nat.cast_zero, zero_mul, sub_zero]
  have hn' : n ≤ K + M := by omega
  refine hasSum_of ((H_sum hn').mul_left (((n:ℝ) + 1) * (K + 1) / (K + M + 1)))
    (fun k => by push_cast; exact H_succ hn' k) ?_
  push_cast
  rw [mul_one]
  congr 1; ring

theorem H_mean2 (hn : n ≤ K + M) (hN : 1 < K + M) :
    HasSum (fun k : ℕ => (k:ℝ) * ((k:ℝ) - 1) * H K M n k)
      (n * (n - 1) * K * (K - 1) / ((K + M) * (K + M - 1))) := by
  rcases K with _ | K
  · refine hasSum_of hasSum_zero (fun k => ?_) (by simp)
    rcases k with _ | k
    · simp
    · rw [H_zero (w_zero_of_gt (Or.inl (by omega))), mul_zero]
  rcases n with _ | n
  · refine hasSum_of hasSum_zero (fun k => ?_) (by simp)
    rcases k with _ | k
    · simp
    · rw [H_zero (w_zero_of_gt (Or.inr (by omega))), mul_zero]
  rw [← hasSum_nat_add_iff' 1]
  simp only [sum_range_one, Nat.cast_zero, zero_mul, sub_zero]
  have hn' : n ≤ K + M := by omega
  refine hasSum_of ((H_mean hn' (by omega)).mul_left (((n:ℝ) + 1) * (K + 1) / (K + M + 1)))
    (fun k => by push_cast; linear_combination (k:ℝ) * H_succ hn' k) ?_
  have c0 : (0:ℝ) < K + M := by exact_mod_cast (by omega : 0 < K + M)
  have c1 : (K:ℝ) + M ≠ 0 := c0.ne'
  have c2 : (K:ℝ) + M + 1 ≠ 0 := by positivity
  have c3 : (K:ℝ) + 1 + M ≠ 0 := by positivity
  have c4 : (K:ℝ) + 1 + M - 1 ≠ 0 := by rw [show (K:ℝ) + 1 + M - 1 = K + M by ring]; exact c1
  push_cast
  rw [div_mul_div_comm, div_eq_div_iff (mul_ne_zero c3 c4) (mul_ne_zero c2 c1)]
  ring

/-- The ratio of consecutive probabilities. -/
theorem H_ratio (h : n ≤ k + M) (hk : k < n) (hK : k < K) :
    H K M n (k + 1) * (((k:ℝ) + 1) * (k + M + 1 - n)) = H K M n k * ((K - k) * (n - k)) := by
  have := w_succ (r0 := K) h hk
  have e : (w K M n (k + 1) : ℝ) * (((k:ℝ) + 1) * (k + M + 1 - n)) = w K M n k * ((K - k) * (n - k)) := by
    have h1 : ((k + M + 1 - n : ℕ) : ℝ) = k + M + 1 - n := by
      rw [Nat.cast_sub (by omega)]; push_cast; ring
    have h2 : ((K - k : ℕ) : ℝ) = K - k := Nat.cast_sub hK.le
    have h3 : ((n - k : ℕ) : ℝ) = n - k := Nat.cast_sub hk.le
    rw [← h1, ← h2, ← h3]
    exact_mod_cast this
  unfold H
  linear_combination e / ((K + M).choose n)

/-- `mp.beta` in terms of binomial coefficients. -/
theorem betaFn_choose (a b : ℕ) :
    ((a:ℝ) + b + 1) * betaFn (a + 1) (b + 1) * (a + b).choose a = 1 := by
  have h := Nat.add_choose_mul_factorial_mul_factorial a b
  have h' : ((a + b).choose a : ℝ) * a.factorial * b.factorial = (a + b).factorial := by
    rw [Nat.choose_symm_add]; exact_mod_cast h
  have e : Real.Gamma ((a:ℝ) + 1 + (b + 1)) = (a + b + 1) * (a + b).factorial := by
    rw [show (a:ℝ) + 1 + (b + 1) = ((a + b + 1 : ℕ) : ℝ) + 1 by push_cast; ring,
      Real.Gamma_nat_eq_factorial, Nat.factorial_succ]
    push_cast; ring
  have c1 : ((a + b).factorial : ℝ) ≠ 0 := by exact_mod_cast (a + b).factorial_ne_zero
  have c2 : (a:ℝ) + b + 1 ≠ 0 := by positivity
  unfold betaFn
  rw [e, Real.Gamma_nat_eq_factorial, Real.Gamma_nat_eq_factorial]
  field_simp
  linarith

theorem betaZ_nat (a b : ℕ) : mp.betaZ (a + 1) (b + 1) =
    .ok (fin (1 / (((a:ℝ) + b + 1) * (a + b).choose a))) := by
  have h : (0:ℤ) < a + 1 ∧ (0:ℤ) < b + 1 := by omega
  have c1 : (0:ℝ) < (a + b).choose a := choose_posR (by omega)
  have c2 : (0:ℝ) < (a:ℝ) + b + 1 := by positivity
  simp only [mp.betaZ, h, and_self, if_true]
  congr 2
  push_cast
  rw [eq_div_iff (by positivity)]
  linear_combination betaFn_choose a b

theorem betaZ_pole {a b : ℤ} (h : a ≤ 0 ∨ b ≤ 0) (hs : 0 < a + b) : mp.betaZ a b = .ok pinf := by
  have : ¬ (0 < a ∧ 0 < b) := by omega
  simp [mp.betaZ, this, hs]

theorem validate_ok {N K n : ℕ} (hK : K ≤ N) (hn : n ≤ N) : validate N K n = .ok () := by
  have h1 : ¬ ((N:ℤ) < 0 ∨ (K:ℤ) < 0 ∨ (n:ℤ) < 0) := by omega
  have h2 : ¬ ((K:ℤ) > N) := by omega
  have h3 : ¬ ((n:ℤ) > N) := by omega
  simp only [validate, if_neg h1, if_neg h2, if_neg h3]

theorem validate_bad {N K n : ℤ} (h : N < 0 ∨ K < 0 ∨ n < 0 ∨ N < K ∨ N < n) :
    validate N K n = .error .valueError := by
  unfold validate
  split_ifs <;> first | rfl | omega

theorem pmf_eval (hn : n ≤ K + M) (k : ℤ) :
    pmf k ((K + M : ℕ) : ℤ) K n = .ok (fin (extZ (H K M n) k)) := by
  have hv := validate_ok (N := K + M) (K := K) (by omega) hn
  obtain ⟨q, hq⟩ := Nat.exists_eq_add_of_le hn
  have e1 : mp.betaZ (((K + M : ℕ) : ℤ) - n + 1) (n + 1) =
      .ok (fin (1 / (((q:ℝ) + n + 1) * (q + n).choose q))) := by
    rw [show ((K + M : ℕ) : ℤ) - n + 1 = (q:ℤ) + 1 by omega]; exact betaZ_nat q n
  have c0 : (0:ℝ) < (K + M).choose n := choose_posR hn
  have e2 : ((q + n).choose q : ℝ) = (K + M).choose n := by
    rw [show q + n = K + M by omega, ← Nat.choose_symm hn]
    congr 2; omega
  have e3 : (((K + M : ℕ) : ℤ) - K : ℤ) = M := by push_cast; ring
  have e4 : (((((K + M : ℕ) : ℤ) + 1 : ℤ)) : ℝ) = (q:ℝ) + n + 1 := by
    have : ((K + M : ℕ) : ℤ) = q + n := by omega
    rw [this]; push_cast; ring
  have c1 : (0:ℝ) < (q:ℝ) + n + 1 := by positivity
  simp only [pmf, hv, ok_bind, e1, e3, ofInt_def, e4, fin_mul]
  have e5 : ((q:ℝ) + n + 1) * (1 / (((q:ℝ) + n + 1) * (q + n).choose q)) = 1 / (K + M).choose n := by
    rw [e2]; field_simp
  rw [e5]
  have c4 : (0:ℝ) < (((K:ℤ) + 1) * ((M:ℤ) + 1) : ℤ) := by push_cast; positivity
  by_cases hs : 0 ≤ k ∧ k ≤ K ∧ k ≤ n ∧ n ≤ k + M
  · obtain ⟨j, rfl⟩ := Int.eq_ofNat_of_zero_le hs.1
    obtain ⟨x, hx⟩ := Nat.exists_eq_add_of_le (show j ≤ K by omega)
    obtain ⟨y, hy⟩ := Nat.exists_eq_add_of_le (show j ≤ n by omega)
    obtain ⟨z, hz⟩ := Nat.exists_eq_add_of_le (show y ≤ M by omega)
    have f1 : mp.betaZ ((j:ℤ) + 1) ((K:ℤ) - j + 1) = .ok (fin (1 / (((j:ℝ) + x + 1) * (j + x).choose j))) := by
      rw [show (K:ℤ) - j + 1 = (x:ℤ) + 1 by omega]; exact betaZ_nat j x
    have f2 : mp.betaZ ((n:ℤ) - j + 1) ((M:ℤ) - n + j + 1) =
        .ok (fin (1 / (((y:ℝ) + z + 1) * (y + z).choose y))) := by
      rw [show (n:ℤ) - j + 1 = (y:ℤ) + 1 by omega, show (M:ℤ) - n + j + 1 = (z:ℤ) + 1 by omega]
      exact betaZ_nat y z
    have d1 : (0:ℝ) < (j + x).choose j := choose_posR (by omega)
    have d2 : (0:ℝ) < (y + z).choose y := choose_posR (by omega)
    have g : H K M n j = (j + x).choose j * (y + z).choose y / (K + M).choose n := by
      rw [H, w, if_pos (by omega), show n - j = y by omega, ← hx, ← hz]; push_cast; rfl
    simp only [f1, f2, ok_bind, fin_mul]
    have hd : ((((K:ℤ) + 1) * ((M:ℤ) + 1) : ℤ) : ℝ) * (1 / (((j:ℝ) + x + 1) * (j + x).choose j)) *
        (1 / (((y:ℝ) + z + 1) * (y + z).choose y)) = 1 / ((j + x).choose j * (y + z).choose y) := by
      have a1 : (0:ℝ) < (j:ℝ) + x + 1 := by positivity
      have a2 : (0:ℝ) < (y:ℝ) + z + 1 := by positivity
      have b1 : ((((K:ℤ) + 1) * ((M:ℤ) + 1) : ℤ) : ℝ) = ((j:ℝ) + x + 1) * ((y:ℝ) + z + 1) := by
        push_cast; rw [hx, hz]; push_cast; ring
      rw [b1]; field_simp
    rw [hd, fin_div _ (by positivity), extZ_nat, g]
    congr 2
    field_simp
  · have hz : extZ (H K M n) k = 0 := by
      rcases lt_or_ge k 0 with h | h
      · exact extZ_neg _ h
      · obtain ⟨j, rfl⟩ := Int.eq_ofNat_of_zero_le h
        rw [extZ_nat]
        refine H_zero ?_
        rcases lt_or_ge K j with h1 | h1
        · exact w_zero_of_gt (Or.inl h1)
        rcases lt_or_ge n j with h2 | h2
        · exact w_zero_of_gt (Or.inr h2)
        exact w_zero_of_lt (by omega)
    rw [hz]
    have f : ∀ a b : ℤ, 0 < a + b → mp.betaZ a b = .ok pinf ∨ ∃ r : ℝ, 0 < r ∧ mp.betaZ a b = .ok (fin r) := by
      intro a b hab
      by_cases h : 0 < a ∧ 0 < b
      · right
        refine ⟨betaFn a b, betaFn_pos (by exact_mod_cast h.1) (by exact_mod_cast h.2), ?_⟩
        simp [mp.betaZ, h]
      · left; exact betaZ_pole (by omega) hab
    have s1 : (0:ℤ) < k + 1 + ((K:ℤ) - k + 1) := by omega
    have s2 : (0:ℤ) < (n:ℤ) - k + 1 + ((M:ℤ) - n + k + 1) := by omega
    by_cases hb : k + 1 ≤ 0 ∨ (K:ℤ) - k + 1 ≤ 0
    · rw [betaZ_pole hb s1]
      rcases f _ _ s2 with h | ⟨r, hr, h⟩
      · rw [h]
        simp only [ok_bind, fin_mul_pinf, scaleInf_pos c4, pinf_mul_pinf, fin_div_pinf]
      · rw [h]
        simp only [ok_bind, fin_mul_pinf, scaleInf_pos c4, pinf_mul_fin, scaleInf_pos hr, fin_div_pinf]
    · rw [betaZ_pole (a := (n:ℤ) - k + 1) (by omega) s2]
      rcases f _ _ s1 with h | ⟨r, hr, h⟩
      · rw [h]
        simp only [ok_bind, fin_mul_pinf, scaleInf_pos c4, pinf_mul_pinf, fin_div_pinf]
      · rw [h]
        simp only [ok_bind, fin_mul, fin_mul_pinf, scaleInf_pos (mul_pos c4 hr), fin_div_pinf]

end Mpsci.hypergeometric

namespace Mpsci.hypergeometric

open Classical Num Finset fisherExact

variable {K M n k : ℕ}

/-- `H_ratio` without upper bounds on `k`. -/
theorem H_ratio' (h : n ≤ k + M) :
    H K M n (k + 1) * (((k:ℝ) + 1) * (k + M + 1 - n)) = H K M n k * ((K - k) * (n - k)) := by
  by_cases h1 : k < n
  · by_cases h2 : k < K
    · exact H_ratio h h1 h2
    · rw [H_zero (w_zero_of_gt (Or.inl (by omega)))]
      rcases (show K ≤ k by omega).eq_or_lt with e | e
      · rw [e]; ring
      · rw [H_zero (k := k) (w_zero_of_gt (Or.inl e))]; ring
  · rw [H_zero (w_zero_of_gt (Or.inr (by omega)))]
    rcases (show n ≤ k by omega).eq_or_lt with e | e
    · rw [e]; ring
    · rw [H_zero (k := k) (w_zero_of_gt (Or.inr e))]; ring

theorem poch_pos {x : ℝ} (hx : 0 < x) (i : ℕ) : 0 < mp.poch x i := by
  induction i with
  | zero => exact one_pos
  | succ i ih => exact mul_pos ih (by positivity)

theorem poch_one (i : ℕ) : mp.poch 1 i = i.factorial := by
  induction i with
  | zero => simp [mp.poch]
  | succ i ih => rw [mp.poch, ih, Nat.factorial_succ]; push_cast; ring

/-- The terms of the hypergeometric series are ratios of probabilities. -/
theorem series_term (h : n ≤ k + M) (i : ℕ) :
    H K M n k * (mp.poch 1 i * mp.poch (k - K) i * mp.poch (k - n) i /
      (mp.poch (k + 1) i * mp.poch (k + M + 1 - n) i * i.factorial)) = H K M n (k + i) := by
  have hn : (n:ℝ) ≤ k + M := by exact_mod_cast h
  induction i with
  | zero => simp [mp.poch]
  | succ i ih =>
    have r := H_ratio' (K := K) (show n ≤ k + i + M by omega)
    have p1 := poch_pos (show (0:ℝ) < k + 1 by positivity) i
    have p2 := poch_pos (show (0:ℝ) < k + M + 1 - n by linarith) i
    have q1 : (0:ℝ) < k + 1 + i := by positivity
    have q2 : (0:ℝ) < k + M + 1 - n + i := by
      have : (0:ℝ) ≤ i := Nat.cast_nonneg i
      linarith
    have q3 : (0:ℝ) < i.factorial := by exact_mod_cast i.factorial_pos
    rw [← add_assoc]
    simp only [mp.poch, Nat.factorial_succ]
    rw [← ih] at r
    push_cast at r ⊢
    have q4 : (0:ℝ) < (i:ℝ) + 1 := by positivity
    have e : ((k:ℝ) + i + 1) * (k + i + M + 1 - n) = (k + 1 + i) * (k + M + 1 - n + i) := by ring
    rw [e] at r
    have r2 := (eq_div_iff (mul_pos q1 q2).ne').2 r
    rw [r2]
    field_simp
    ring

/-- The tail as a terminating hypergeometric series. -/
theorem tail_series (hn : n ≤ K + M) (h : n ≤ k + M) :
    HasSum (fun i : ℕ => H K M n (k + i)) (H K M n k *
      ∑' i : ℕ, mp.poch 1 i * mp.poch (k - K) i * mp.poch (k - n) i /
      (mp.poch (k + 1) i * mp.poch (k + M + 1 - n) i * i.factorial)) := by
  have hs : Summable fun i : ℕ => H K M n (k + i) := by
    have := (summable_nat_add_iff k).2 (H_sum (K := K) (M := M) hn).summable
    simpa [add_comm] using this
  rw [← tsum_mul_left]
  have e := hs.hasSum
  have e2 : (fun i : ℕ => H K M n (k + i)) = fun i => H K M n k * (mp.poch 1 i * mp.poch (k - K) i *
      mp.poch (k - n) i / (mp.poch (k + 1) i * mp.poch (k + M + 1 - n) i * i.factorial)) :=
    funext fun i => (series_term h i).symm
  rw [← e2]
  exact e

/-- The probability in the transposed form used by the code of `sf`. -/
theorem H_transpose (hn : n ≤ K + M) :
    H K M n k = (w n (K + M - n) K k : ℝ) / (K + M).choose K := by
  have h := w_transpose (r0 := K) (r1 := M) (c0 := n) (c1 := K + M - n) (k := k) (by omega)
  have a1 := Nat.choose_mul_factorial_mul_factorial hn
  have a2 := Nat.choose_mul_factorial_mul_factorial (show K ≤ K + M by omega)
  rw [show K + M - K = M by omega] at a2
  have c1 := choose_posR hn
  have c2 := choose_posR (show K ≤ K + M by omega)
  have h' : (w K M n k : ℝ) * (n.factorial * (K + M - n).factorial) =
      w n (K + M - n) K k * (K.factorial * M.factorial) := by exact_mod_cast h
  have a1' : ((K + M).choose n : ℝ) * n.factorial * (K + M - n).factorial = (K + M).factorial := by
    exact_mod_cast a1
  have a2' : ((K + M).choose K : ℝ) * K.factorial * M.factorial = (K + M).factorial := by
    exact_mod_cast a2
  have f1 : (0:ℝ) < n.factorial * (K + M - n).factorial := by
    have := n.factorial_pos; have := (K + M - n).factorial_pos; positivity
  have f2 : (0:ℝ) < K.factorial * M.factorial := by
    have := K.factorial_pos; have := M.factorial_pos; positivity
  rw [H, div_eq_div_iff c1.ne' c2.ne']
  have key : (w K M n k : ℝ) * (K + M).choose K * ((n.factorial * (K + M - n).factorial) *
      (K.factorial * M.factorial)) = w n (K + M - n) K k * (K + M).choose n *
      ((n.factorial * (K + M - n).factorial) * (K.factorial * M.factorial)) := by
    have : ((K + M).choose K : ℝ) * (K.factorial * M.factorial) =
        (K + M).choose n * (n.factorial * (K + M - n).factorial) := by
      rw [← mul_assoc, a2', ← mul_assoc, a1']
    calc (w K M n k : ℝ) * (K + M).choose K * ((n.factorial * (K + M - n).factorial) *
        (K.factorial * M.factorial)) = (w K M n k * (n.factorial * (K + M - n).factorial)) *
        ((K + M).choose K * (K.factorial * M.factorial)) := by ring
      _ = _ := by rw [h', this]; ring
  exact mul_right_cancel₀ (mul_pos f1 f2).ne' key

theorem binomial_w {a b c k : ℕ} : ∃ x y : ℝ, mp.binomial a k = .ok (fin x) ∧
    mp.binomial b ((c:ℤ) - k) = .ok (fin y) ∧ x * y = w a b c k := by
  rcases le_or_gt k c with h | h
  · refine ⟨_, (b.choose (c - k) : ℝ), mp.binomial_nat a k, ?_, ?_⟩
    · rw [← Int.ofNat_sub h]; exact mp.binomial_nat b (c - k)
    · rw [w, if_pos h]; push_cast; ring
  · refine ⟨_, 0, mp.binomial_nat a k, mp.binomial_neg b (by omega), ?_⟩
    rw [w, if_neg (by omega)]; simp

/-- `sf(k)` from just below the support on. -/
theorem sf_eval {j : ℕ} (hn : n ≤ K + M) (h : n ≤ j + M) :
    ∃ s : ℝ, sf ((j : ℤ) - 1) ((K + M : ℕ) : ℤ) K n = .ok (fin s) ∧
      HasSum (fun i : ℕ => H K M n (j + i)) s := by
  refine ⟨_, ?_, tail_series hn h⟩
  have hv := validate_ok (N := K + M) (K := K) (by omega) hn
  have hn' : (n:ℝ) ≤ j + M := by exact_mod_cast h
  obtain ⟨x, y, e1, e2, e3⟩ := binomial_w (a := n) (b := K + M - n) (c := K) (k := j)
  have hc : ((((1:ℝ) + (j - K) + (j - n) < j + 1 + (j + M + 1 - n)))) := by
    have : (0:ℝ) ≤ K := Nat.cast_nonneg K
    have : (0:ℝ) ≤ M := Nat.cast_nonneg M
    linarith
  have hl : ∀ m : ℕ, (j:ℝ) + 1 ≠ -m ∧ (j:ℝ) + M + 1 - n ≠ -m := by
    intro m
    have : (0:ℝ) ≤ m := Nat.cast_nonneg m
    have : (0:ℝ) ≤ j := Nat.cast_nonneg j
    constructor <;> intro _ <;> linarith
  have hh : mp.hyp3f2One 1 (((j:ℤ) - 1 + 1 - K : ℤ)) (((j:ℤ) - 1 + 1 - n : ℤ)) (((j:ℤ) - 1 + 2 : ℤ))
      ((((K + M : ℕ) : ℤ) + ((j:ℤ) - 1) + 2 - K - n : ℤ)) = .ok (fin (
        ∑' i : ℕ, mp.poch 1 i * mp.poch (j - K) i * mp.poch (j - n) i /
      (mp.poch (j + 1) i * mp.poch (j + M + 1 - n) i * i.factorial))) := by
    have a1 : (((j:ℤ) - 1 + 1 - K : ℤ) : ℝ) = j - K := by push_cast; ring
    have a2 : (((j:ℤ) - 1 + 1 - n : ℤ) : ℝ) = j - n := by push_cast; ring
    have a3 : (((j:ℤ) - 1 + 2 : ℤ) : ℝ) = j + 1 := by push_cast; ring
    have a4 : ((((K + M : ℕ) : ℤ) + ((j:ℤ) - 1) + 2 - K - n : ℤ) : ℝ) = j + M + 1 - n := by
      push_cast; ring
    rw [a1, a2, a3, a4, mp.hyp3f2One, if_pos ⟨Or.inr hc, hl⟩]
  have eC := mp.binomial_nat (K + M) K
  have cC : (((K + M).choose K : ℕ) : ℝ) ≠ 0 := (choose_posR (by omega)).ne'
  simp only [sf, hv, ok_bind, hh]
  rw [show (j:ℤ) - 1 + 1 = j by ring, show (K:ℤ) - ((j:ℤ) - 1) - 1 = K - j by ring,
    show ((K + M : ℕ) : ℤ) - n = ((K + M - n : ℕ) : ℤ) by omega, e1, e2, eC]
  simp only [ok_bind, fin_mul, fin_div _ cC, pure_eq_ok, e3]
  rw [H_transpose hn]

end Mpsci.hypergeometric
