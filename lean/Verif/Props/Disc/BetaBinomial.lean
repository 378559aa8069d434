import Verif.Lemmas.Disc.BetaBinomial
import Verif.Lemmas.DiscMoments
import Verif.Props.Fun.Log

/-! Properties of the beta-binomial distribution. -/

namespace Mpsci.betabinomial

open Classical Num Spec Finset

variable {n : ℕ} {a b : ℝ}

theorem validate_ok (n : ℕ) (ha : 0 < a) (hb : 0 < b) : validateParams n (fin a) (fin b) = .ok ((n:ℤ), fin a, fin b) := by
  have h : ¬ (n:ℤ) < 0 := by omega
  simp [validateParams, ha.not_ge, hb.not_ge, h]

theorem validate_bad {n : ℤ} (h : n < 0 ∨ a ≤ 0 ∨ b ≤ 0) : validateParams n (fin a) (fin b) = .error .valueError := by
  by_cases h1 : n < 0
  · simp [validateParams, h1]
  · by_cases h2 : a ≤ 0
    · simp [validateParams, h1, h2]
    · simp [validateParams, h1, h2, (h.resolve_left h1).resolve_left h2]

/-- C33, C07 invalid parameters are rejected by every function. -/
theorem rejects {n : ℤ} (h : n < 0 ∨ a ≤ 0 ∨ b ≤ 0) (k : ℤ) :
    pmf k n (fin a) (fin b) = .error .valueError ∧ logpmf k n (fin a) (fin b) = .error .valueError ∧
    cdf k n (fin a) (fin b) = .error .valueError ∧ sf k n (fin a) (fin b) = .error .valueError ∧
    mean n (fin a) (fin b) = .error .valueError ∧ var n (fin a) (fin b) = .error .valueError ∧
    mode n (fin a) (fin b) = .error .valueError ∧ support n (fin a) (fin b) = .error .valueError ∧
    skewness n (fin a) (fin b) = .error .valueError ∧ kurtosis n (fin a) (fin b) = .error .valueError := by
  simp [pmf, logpmf, cdf, sf, mean, var, mode, support, skewness, kurtosis, validate_bad h]

/-- C33 `support` lists `0, ..., n`. -/
theorem support_spec (n : ℕ) (ha : 0 < a) (hb : 0 < b) : ∃ l, support n (fin a) (fin b) = .ok l ∧ l.Nodup ∧
    ∀ k, k ∈ l ↔ 0 ≤ k ∧ k ≤ n := by
  refine ⟨py.range 0 (n + 1), by simp [support, validate_ok n ha hb], py.nodup_range _ _, fun k => ?_⟩
  rw [py.mem_range]; omega

theorem logbeta_eval {x y : ℝ} (hx : 0 < x) (hy : 0 < y) : fun_.logbeta (fin x) (fin y) = .ok (fin (Real.log (betaFn x y))) := by
  have h1 := (Real.Gamma_pos_of_pos hx).ne'
  have h2 := (Real.Gamma_pos_of_pos hy).ne'
  have h3 := (Real.Gamma_pos_of_pos (add_pos hx hy)).ne'
  simp only [fun_.logbeta, mp.fsum, List.foldr, zero_def, fin_add, add_zero, mp.loggamma_pos hx, mp.loggamma_pos hy,
    mp.loggamma_pos (add_pos hx hy), ok_bind, pure_eq_ok, fin_sub]
  rw [betaFn, Real.log_div (mul_ne_zero h1 h2) h3, Real.log_mul h1 h2]

theorem logpmf_eval (ha : 0 < a) (hb : 0 < b) {k : ℕ} (hk : k ≤ n) : logpmf k n (fin a) (fin b) = .ok (fin (Real.log (W n a b k))) := by
  have hneg : ¬ (k:ℤ) < 0 := by omega
  have hbig : ¬ (n:ℤ) < k := by omega
  have h1 : 0 < (k:ℝ) + a := by positivity
  have h2 : 0 < ((n - k : ℕ):ℝ) + b := by positivity
  have e : ((n:ℤ) - k : ℤ) = ((n - k : ℕ) : ℤ) := by omega
  have p1 := betaFn_pos h1 h2
  have p2 := betaFn_pos ha hb
  have p3 : (0:ℝ) < n.choose k := by exact_mod_cast Nat.choose_pos hk
  simp only [logpmf, validate_ok n ha hb, ok_bind, hneg, hbig, if_false, e, ofInt_def, Int.cast_natCast, fun_.logbinomial_eq hk, fin_add,
    logbeta_eval h1 h2, logbeta_eval ha hb, pure_eq_ok, fin_sub]
  rw [W_eq ha hb hk, Real.log_div (by positivity) p2.ne', Real.log_mul p3.ne' p1.ne']

theorem pmf_eval (n : ℕ) (ha : 0 < a) (hb : 0 < b) (k : ℤ) : pmf k n (fin a) (fin b) = .ok (fin (extZ (W n a b) k)) := by
  revert k
  refine forall_int (fun k => ?_) (fun k hk => ?_)
  · rw [extZ_nat]
    have hneg : ¬ (k:ℤ) < 0 := by omega
    rcases le_or_gt k n with h | h
    · have hbig : ¬ (n:ℤ) < k := by omega
      simp only [pmf, validate_ok n ha hb, ok_bind, hneg, hbig, if_false, logpmf_eval ha hb h, pure_eq_ok, mp.exp_fin, Real.exp_log (W_pos ha hb h)]
    · have hbig : (n:ℤ) < k := by omega
      simp only [pmf, validate_ok n ha hb, ok_bind, hneg, hbig, if_false, if_true, pure_eq_ok, W_zero a b h, zero_def]
  · simp [pmf, validate_ok n ha hb, hk, extZ_neg]

/-- C33 `pmf` is a probability mass function on `0, ..., n`. -/
theorem isPmf (n : ℕ) (ha : 0 < a) (hb : 0 < b) : IsPmf Set.univ (Set.Icc 0 n) fun k => pmf k n (fin a) (fin b) := by
  refine ⟨Set.subset_univ _, _, mass_univ (pmf_eval n ha hb), ?_, ?_, hasSum_extZ (W_sum ha hb)⟩
  · exact forall_int (fun k => by rw [extZ_nat]; exact W_nonneg ha hb k) (fun k hk => by rw [extZ_neg _ hk])
  · refine forall_int (fun k hk => ?_) (fun k hk _ => extZ_neg _ hk)
    rw [extZ_nat]
    refine W_zero a b ?_
    by_contra hc
    exact hk ⟨by omega, by omega⟩

/-- C35 `logpmf` is the logarithm of `pmf`, `-inf` where that is zero. -/
theorem isLogPmf (n : ℕ) (ha : 0 < a) (hb : 0 < b) :
    IsLogPmf Set.univ (fun k => pmf k n (fin a) (fin b)) (fun k => logpmf k n (fin a) (fin b)) := by
  intro k _
  refine ⟨_, ?_, pmf_eval n ha hb k, ?_⟩
  · revert k
    exact forall_int (fun k _ => by rw [extZ_nat]; exact W_nonneg ha hb k) (fun k hk _ => by rw [extZ_neg _ hk])
  · revert k
    refine forall_int (fun k _ => ?_) (fun k hk _ => ?_)
    · rw [extZ_nat]
      rcases le_or_gt k n with h | h
      · rw [if_neg (W_pos ha hb h).ne']; exact logpmf_eval ha hb h
      · have hneg : ¬ (k:ℤ) < 0 := by omega
        have hbig : (n:ℤ) < k := by omega
        simp [logpmf, validate_ok n ha hb, hbig, W_zero a b h]
    · simp [logpmf, validate_ok n ha hb, hk, extZ_neg]

/-- The terms of the hypergeometric series are the masses beyond `k`. -/
theorem term_eq (ha : 0 < a) (hb : 0 < b) {k : ℕ} (hk : k < n) {i : ℕ} (hi : k + 1 + i ≤ n) :
    W n a b (k + 1) * (mp.poch 1 i * mp.poch (-n + k + 1) i * mp.poch (a + k + 1) i /
      (mp.poch (k + 2) i * mp.poch (-n - b + k + 2) i * i.factorial)) = W n a b (k + 1 + i) ∧ mp.poch (-n - b + k + 2) i ≠ 0 := by
  induction i with
  | zero => simp [mp.poch]
  | succ i ih =>
    obtain ⟨ih, ih2⟩ := ih (by omega)
    have hi' : ((k:ℝ) + 1 + i) + 1 ≤ n := by exact_mod_cast hi
    have r := W_ratio (n := n) ha hb (show k + 1 + i < n by omega)
    have p1 := (poch_pos (show (0:ℝ) < k + 2 by positivity) i).ne'
    have p3 : (i.factorial : ℝ) ≠ 0 := by exact_mod_cast i.factorial_ne_zero
    have n1 : (k:ℝ) + 2 + i ≠ 0 := by positivity
    have n2 : -(n:ℝ) - b + k + 2 + i ≠ 0 := by
      have : -(n:ℝ) - b + k + 2 + i < 0 := by linarith
      exact this.ne
    have n3 : (i:ℝ) + 1 ≠ 0 := by positivity
    refine ⟨?_, mul_ne_zero ih2 n2⟩
    simp only [mp.poch, Nat.factorial_succ]
    push_cast at r ⊢
    have e : W n a b (k + 1) * (mp.poch 1 i * (1 + i) * (mp.poch (-n + k + 1) i * (-n + k + 1 + i)) * (mp.poch (a + k + 1) i * (a + k + 1 + i)) /
        (mp.poch (k + 2) i * (k + 2 + i) * (mp.poch (-n - b + k + 2) i * (-n - b + k + 2 + i)) * ((i + 1) * i.factorial))) =
        W n a b (k + 1 + i) * ((-n + k + 1 + i) * (a + k + 1 + i) / ((k + 2 + i) * (-n - b + k + 2 + i))) := by
      rw [← ih]
      generalize mp.poch (-n - b + k + 2) i = x at *
      field_simp
      ring
    rw [e, mul_div_assoc', div_eq_iff (mul_ne_zero n1 n2), ← add_assoc]
    linear_combination r

/-- What `tail` computes: the sum of the masses beyond `k`. -/
theorem tail_eval (ha : 0 < a) (hb : 0 < b) {k : ℕ} (hk : k < n) :
    tail k n (fin a) (fin b) = .ok (fin (∑ i ∈ range (n - k), W n a b (k + 1 + i))) := by
  have hk' : (k:ℝ) + 1 ≤ n := by exact_mod_cast hk
  have h1 : 0 < (n:ℝ) + b - k - 1 := by linarith
  have h2 : 0 < a + k + 1 := by positivity
  have h3 : 0 < (n:ℝ) - k := by linarith
  have h4 : 0 < (k:ℝ) + 2 := by positivity
  have hh : mp.hyp3f2Poly (fin 1) (fin (-n + k + 1)) (fin (a + k + 1)) (fin (k + 2)) (fin (-n - b + k + 2)) =
      .ok (fin (∑ i ∈ range (n - k), mp.poch 1 i * mp.poch (-n + k + 1) i * mp.poch (a + k + 1) i /
      (mp.poch (k + 2) i * mp.poch (-n - b + k + 2) i * i.factorial))) := by
    have hm : -(n:ℝ) + k + 1 = -((n - k - 1 : ℕ):ℝ) := by
      rw [Nat.cast_sub (by omega), Nat.cast_sub (by omega)]; push_cast; ring
    have c : ∃ m : ℕ, -(n:ℝ) + k + 1 = -m ∧ ∀ j < m, (k:ℝ) + 2 + (j:ℝ) ≠ 0 ∧ -(n:ℝ) - b + k + 2 + (j:ℝ) ≠ 0 := by
      refine ⟨n - k - 1, hm, fun j hj => ⟨by positivity, ?_⟩⟩
      have : (j:ℝ) + 1 + k + 1 ≤ n := by exact_mod_cast (by omega : j + 1 + k + 1 ≤ n)
      have : -(n:ℝ) - b + k + 2 + j < 0 := by linarith
      exact this.ne
    have e : ⌊-(-(n:ℝ) + k + 1)⌋₊ + 1 = n - k := by
      rw [hm, neg_neg, Nat.floor_natCast]; omega
    rw [mp.hyp3f2Poly, if_pos c, e]
  have p1 := betaFn_pos ha hb
  have p2 := betaFn_pos h3 h4
  have hd : ((n:ℝ) + 1) * betaFn a b * betaFn (n - k) (k + 2) ≠ 0 := by positivity
  simp only [tail, ofInt_def, ofNat_def, one_def, Int.cast_add, Int.cast_neg, Int.cast_sub, Int.cast_natCast, Int.cast_one, Int.cast_ofNat, fin_add, fin_sub,
    mp.beta_fin h1 h2, ok_bind, hh, mp.beta_fin ha hb, mp.beta_fin h3 h4, fin_mul, fin_div _ hd]
  have key : betaFn (n + b - k - 1) (a + k + 1) / ((n + 1) * betaFn a b * betaFn (n - k) (k + 2)) = W n a b (k + 1) := by
    rw [W_eq ha hb (show k + 1 ≤ n by omega)]
    have e1 : betaFn (((k + 1 : ℕ):ℝ) + a) (((n - (k + 1) : ℕ):ℝ) + b) = betaFn (n + b - k - 1) (a + k + 1) := by
      rw [Nat.cast_sub (by omega)]
      unfold betaFn
      rw [mul_comm]; push_cast
      congr 2 <;> ring_nf
    have e2 : ((n:ℝ) + 1) * betaFn (n - k) (k + 2) * n.choose (k + 1) = 1 := by
      obtain ⟨m, rfl⟩ : ∃ m, n = k + 1 + m := ⟨n - (k + 1), by omega⟩
      rw [betaFn, show (((k + 1 + m : ℕ):ℝ) - k) = (m:ℝ) + 1 by push_cast; ring, show (k:ℝ) + 2 = ((k + 1 : ℕ):ℝ) + 1 by push_cast; ring,
        show (m:ℝ) + 1 + (((k + 1 : ℕ):ℝ) + 1) = ((k + 1 + m + 1 : ℕ):ℝ) + 1 by push_cast; ring, Real.Gamma_nat_eq_factorial, Real.Gamma_nat_eq_factorial,
        Real.Gamma_nat_eq_factorial, Nat.factorial_succ (k + 1 + m), ← Nat.add_choose_mul_factorial_mul_factorial (k + 1) m]
      have f1 : ((k + 1).factorial : ℝ) ≠ 0 := by exact_mod_cast (k + 1).factorial_ne_zero
      have f2 : (m.factorial : ℝ) ≠ 0 := by exact_mod_cast m.factorial_ne_zero
      have f3 : ((k + 1 + m).choose (k + 1) : ℝ) ≠ 0 := by exact_mod_cast (Nat.choose_pos (by omega : k + 1 ≤ k + 1 + m)).ne'
      have f4 : (k:ℝ) + 1 + m + 1 ≠ 0 := by positivity
      push_cast
      field_simp
      rw [Nat.choose_symm_add] at f3 ⊢
      exact div_self f3
    rw [e1]
    rw [div_eq_div_iff (by positivity) p1.ne']
    linear_combination -(betaFn (n + b - k - 1) (a + k + 1) * betaFn a b) * e2
  rw [mul_div_right_comm, key, mul_sum]
  congr 2
  exact sum_congr rfl fun i hi => (term_eq ha hb hk (by have := mem_range.1 hi; omega)).1

theorem hasSum_tail (a b : ℝ) {k : ℕ} (hk : k < n) : HasSum (fun j : ℤ => if (k:ℤ) < j then extZ (W n a b) j else 0)
    (∑ i ∈ range (n - k), W n a b (k + 1 + i)) := by
  refine hasSum_gt_shift ?_
  have h : HasSum (fun i : ℕ => W n a b (k + 1 + i)) (∑ i ∈ range (n - k), W n a b (k + 1 + i)) :=
    hasSum_sum_of_ne_finset_zero fun i hi => W_zero a b (by have := not_lt.1 (mt mem_range.2 hi); omega)
  refine hasSum_of h (fun i => ?_) rfl
  rw [show (k:ℤ) + 1 + i = ((k + 1 + i : ℕ) : ℤ) by push_cast; ring, extZ_nat]

theorem hasSum_beyond (a b : ℝ) {k : ℕ} (hk : n ≤ k) : HasSum (fun j : ℤ => if (k:ℤ) < j then extZ (W n a b) j else 0) 0 := by
  convert hasSum_zero using 1
  funext j
  revert j
  refine forall_int (P := fun j => (if (k:ℤ) < j then extZ (W n a b) j else 0) = 0) (fun j => ?_) (fun j hj => ?_)
  · split_ifs with h
    · rw [extZ_nat]; exact W_zero a b (by omega)
    · rfl
  · rw [if_neg (by omega)]

/-- C34 `cdf(k)` is the sum of the probabilities of `0, ..., k`, for every integer `k`. -/
theorem isSumCdf (n : ℕ) (ha : 0 < a) (hb : 0 < b) :
    IsSumCdf Set.univ Set.univ (fun k => pmf k n (fin a) (fin b)) (fun k => cdf k n (fin a) (fin b)) := by
  refine ⟨_, mass_univ (pmf_eval n ha hb), ?_⟩
  refine forall_int (fun k _ => ?_) (fun k hk _ =>
    ⟨0, by simp [cdf, validate_ok n ha hb, hk], hasSum_le_neg (fun j hj => extZ_neg _ hj) hk⟩)
  have hneg : ¬ (k:ℤ) < 0 := by omega
  rcases lt_or_ge k n with h | h
  · refine ⟨_, ?_, hasSum_le_of_gt (hasSum_extZ (W_sum ha hb)) (hasSum_tail a b h)⟩
    have hbig : ¬ (n:ℤ) ≤ k := by omega
    simp only [cdf, validate_ok n ha hb, ok_bind, hneg, hbig, if_false, tail_eval ha hb h, pure_eq_ok, one_def, fin_sub]
  · refine ⟨_, ?_, hasSum_le_of_gt (hasSum_extZ (W_sum ha hb)) (hasSum_beyond a b h)⟩
    simp [cdf, validate_ok n ha hb, h]

/-- C34 `sf(k)` is the sum of the probabilities of `k+1, ..., n`, for every integer `k`. -/
theorem isSumSf (n : ℕ) (ha : 0 < a) (hb : 0 < b) :
    IsSumSf Set.univ Set.univ (fun k => pmf k n (fin a) (fin b)) (fun k => sf k n (fin a) (fin b)) := by
  refine ⟨_, mass_univ (pmf_eval n ha hb), ?_⟩
  refine forall_int (fun k _ => ?_) (fun k hk _ => ⟨1, by simp [sf, validate_ok n ha hb, hk], ?_⟩)
  · have hneg : ¬ (k:ℤ) < 0 := by omega
    rcases lt_or_ge k n with h | h
    · refine ⟨_, ?_, hasSum_tail a b h⟩
      have hbig : ¬ (n:ℤ) ≤ k := by omega
      simp only [sf, validate_ok n ha hb, ok_bind, hneg, hbig, if_false, tail_eval ha hb h]
    · refine ⟨_, ?_, hasSum_beyond a b h⟩
      simp [sf, validate_ok n ha hb, h]
  · have := hasSum_gt (hasSum_extZ (W_sum (n := n) ha hb)) (hasSum_le_neg (fun j hj => extZ_neg _ hj) hk)
    rwa [sub_zero] at this

theorem W_ext {φ : ℝ → ℝ} {c : ℝ} (h : HasSum (fun k : ℕ => φ k * W n a b k) c) : HasSum (fun k : ℤ => φ k * extZ (W n a b) k) c :=
  hasSum_int h (fun k hk => by rw [extZ_neg _ hk, mul_zero]) fun k => by simp

theorem mean_eval (n : ℕ) (ha : 0 < a) (hb : 0 < b) : mean n (fin a) (fin b) = .ok (fin (n * a / (a + b))) := by
  have h : a + b ≠ 0 := by positivity
  simp only [mean, validate_ok n ha hb, ok_bind, ofInt_def, Int.cast_natCast, fin_mul, fin_add, fin_div _ h]

theorem e1 (n : ℕ) (ha : 0 < a) (hb : 0 < b) : HasSum (fun k : ℤ => (k:ℝ) * extZ (W n a b) k) (n * a / (a + b)) := W_ext (φ := id) (W_mean ha hb n)

theorem W_var (n : ℕ) (ha : 0 < a) (hb : 0 < b) :
    HasSum (fun k : ℤ => ((k:ℝ) - n * a / (a + b)) ^ 2 * extZ (W n a b) k) (n * a * b * (a + b + n) / (a + b) ^ 2 / (a + b + 1)) := by
  have h1 : a + b ≠ 0 := by positivity
  have h2 : a + b + 1 ≠ 0 := by positivity
  refine hasSum_of (hasSum_var (hasSum_extZ (W_sum ha hb)) (e1 n ha hb) (W_ext (φ := fun k => k * (k - 1)) (W_mean2 ha hb n))) (fun _ => rfl) ?_
  field_simp
  ring

/-- C37 `mean` is the expected value. -/
theorem isMean (n : ℕ) (ha : 0 < a) (hb : 0 < b) : IsDMean Set.univ (fun k => pmf k n (fin a) (fin b)) (mean n (fin a) (fin b)) :=
  ⟨_, _, mass_univ (pmf_eval n ha hb), mean_eval n ha hb, e1 n ha hb⟩

/-- C37 `var` is the variance. -/
theorem isVar (n : ℕ) (ha : 0 < a) (hb : 0 < b) :
    IsDVar Set.univ (fun k => pmf k n (fin a) (fin b)) (mean n (fin a) (fin b)) (var n (fin a) (fin b)) := by
  refine ⟨_, _, _, mass_univ (pmf_eval n ha hb), mean_eval n ha hb, ?_, e1 n ha hb, W_var n ha hb⟩
  have h1 : (a + b) ^ 2 ≠ 0 := by positivity
  have h2 : a + b + 1 ≠ 0 := by positivity
  simp only [var, validate_ok n ha hb, ok_bind, ofInt_def, Int.cast_natCast, one_def, fin_mul, fin_add, mp.ipow_fin, fin_div _ h1, fin_div _ h2]

/-- C37 `skewness` is the skewness, for `n >= 1`. -/
theorem isSkewness (hn : 0 < n) (ha : 0 < a) (hb : 0 < b) : IsDSkewness Set.univ (fun k => pmf k n (fin a) (fin b)) (skewness n (fin a) (fin b)) := by
  have hn' : (0:ℝ) < n := by exact_mod_cast hn
  have hv : 0 < n * a * b * (a + b + n) / (a + b) ^ 2 / (a + b + 1) := by positivity
  refine ⟨_, _, _, _, mass_univ (pmf_eval n ha hb), e1 n ha hb, W_var n ha hb, hasSum_central3 (hasSum_extZ (W_sum ha hb)) (e1 n ha hb)
    (W_ext (φ := fun k => k * (k - 1)) (W_mean2 ha hb n)) (W_ext (φ := fun k => k * (k - 1) * (k - 2)) (W_mean3 ha hb n)), hv, ?_⟩
  have h2 : a + b + 2 ≠ 0 := by positivity
  have h3 : n * a * b * (a + b + n) ≠ 0 := by positivity
  have h4 : 0 ≤ (1 + (a + b)) / (n * a * b * (a + b + n)) := by positivity
  simp only [skewness, validate_ok n ha hb, ok_bind, ofInt_def, Int.cast_natCast, Int.cast_mul, Int.cast_ofNat, ofNat_def, one_def, fin_mul, fin_add, fin_sub,
    fin_div _ h2, fin_div _ h3, mp.sqrt_nonneg h4, pure_eq_ok]
  congr 2
  set V := n * a * b * (a + b + n) / (a + b) ^ 2 / (a + b + 1) with hV
  have e : (1 + (a + b)) / (n * a * b * (a + b + n)) = 1 / (V * (a + b) ^ 2) := by
    rw [hV]; field_simp; ring
  have hs := Real.sqrt_pos.2 hv
  have hs2 := Real.mul_self_sqrt hv.le
  rw [e, show (3 / 2 : ℝ) = 1 + 1 / 2 by norm_num, Real.rpow_add hv, Real.rpow_one, ← Real.sqrt_eq_rpow, Real.sqrt_div zero_le_one, Real.sqrt_one,
    Real.sqrt_mul hv.le, Real.sqrt_sq (by positivity)]
  rw [mul_one_div, eq_div_iff (mul_pos hv hs).ne', div_mul_eq_mul_div, div_eq_iff (by positivity)]
  generalize hT : √V = T at *
  rw [hV]
  field_simp
  ring

/-- C37 `kurtosis` is the excess kurtosis, for `n >= 1`. -/
theorem isKurtosis (hn : 0 < n) (ha : 0 < a) (hb : 0 < b) : IsDKurtosis Set.univ (fun k => pmf k n (fin a) (fin b)) (kurtosis n (fin a) (fin b)) := by
  have hn' : (0:ℝ) < n := by exact_mod_cast hn
  have hv : 0 < n * a * b * (a + b + n) / (a + b) ^ 2 / (a + b + 1) := by positivity
  refine ⟨_, _, _, _, mass_univ (pmf_eval n ha hb), e1 n ha hb, W_var n ha hb, hasSum_central4 (hasSum_extZ (W_sum ha hb)) (e1 n ha hb)
    (W_ext (φ := fun k => k * (k - 1)) (W_mean2 ha hb n)) (W_ext (φ := fun k => k * (k - 1) * (k - 2)) (W_mean3 ha hb n))
    (W_ext (φ := fun k => k * (k - 1) * (k - 2) * (k - 3)) (W_mean4 ha hb n)), hv, ?_⟩
  have h3 : a * b * n * (a + b + 2) * (a + b + 3) * (a + b + n) ≠ 0 := by positivity
  simp only [kurtosis, validate_ok n ha hb, ok_bind, ofInt_def, Int.cast_natCast, Int.cast_mul, Int.cast_pow, Int.cast_ofNat, ofNat_def, one_def, fin_mul,
    fin_add, fin_sub, mp.ipow_fin, fin_div _ h3, pure_eq_ok]
  congr 2
  have : a + b ≠ 0 := by positivity
  field_simp
  ring

/-- C37: with `n = 0`, which is accepted as valid (all mass at 0), `skewness` and `kurtosis` divide by zero. -/
theorem n_zero (ha : 0 < a) (hb : 0 < b) : skewness 0 (fin a) (fin b) = .error .zeroDivision ∧ kurtosis 0 (fin a) (fin b) = .error .zeroDivision ∧
    var 0 (fin a) (fin b) = .ok 0 ∧ pmf 0 0 (fin a) (fin b) = .ok 1 := by
  have hv : validateParams 0 (fin a) (fin b) = _ := validate_ok 0 ha hb
  have h2 : a + b + 2 ≠ 0 := by positivity
  have h3 : (a + b) ^ 2 ≠ 0 := by positivity
  have h4 : a + b + 1 ≠ 0 := by positivity
  refine ⟨?_, ?_, ?_, ?_⟩
  · simp [skewness, hv, fin_div _ h2]
  · simp [kurtosis, hv]
  · simp [var, hv, fin_div _ h3, fin_div _ h4]
  · have := pmf_eval 0 ha hb (0:ℕ)
    rw [extZ_nat] at this
    refine this.trans ?_
    simp [W, mp.poch]

/-- The sign of the step from `k` to `k + 1`. -/
def U (n : ℕ) (a b : ℝ) (k : ℝ) : ℝ := n * (a - 1) - (b - 1) - k * (a + b - 2)

theorem U_eq (ha : 0 < a) (hb : 0 < b) {k : ℕ} (h : k < n) : ((k:ℝ) + 1) * (n - k - 1 + b) * (W n a b (k + 1) - W n a b k) = U n a b k * W n a b k := by
  rw [mul_sub, W_ratio ha hb h, U]; ring

theorem step_pos (hb : 0 < b) {k : ℕ} (h : k < n) : 0 < ((k:ℝ) + 1) * (n - k - 1 + b) := by
  have : (k:ℝ) + 1 ≤ n := by exact_mod_cast h
  exact mul_pos (by positivity) (by linarith)

theorem W_up (ha : 0 < a) (hb : 0 < b) {k : ℕ} (h : k < n) (hU : 0 < U n a b k) : W n a b k < W n a b (k + 1) := by
  have e := U_eq ha hb h
  have : 0 < U n a b k * W n a b k := mul_pos hU (W_pos ha hb h.le)
  rw [← e] at this
  linarith [(mul_pos_iff_of_pos_left (step_pos hb h)).1 this]

theorem W_down (ha : 0 < a) (hb : 0 < b) {k : ℕ} (h : k < n) (hU : U n a b k ≤ 0) : W n a b (k + 1) ≤ W n a b k := by
  have e := U_eq ha hb h
  by_contra hc
  have h1 : 0 < W n a b (k + 1) - W n a b k := by linarith [not_le.1 hc]
  have := mul_pos (step_pos hb h) h1
  rw [e] at this
  nlinarith [W_pos ha hb h.le]

theorem W_le_zero (ha : 0 < a) (hb : 0 < b) {j : ℕ} (hj : j ≤ n) (hU : ∀ i < j, U n a b i ≤ 0) : W n a b j ≤ W n a b 0 := by
  induction j with
  | zero => exact le_rfl
  | succ j ih => exact (W_down ha hb (by omega) (hU j (by omega))).trans (ih (by omega) fun i hi => hU i (by omega))

theorem W_lt_last (ha : 0 < a) (hb : 0 < b) {j m : ℕ} (hm : m ≤ n) (hj : j < m) (hU : ∀ i, j ≤ i → i < m → 0 < U n a b i) : W n a b j < W n a b m := by
  induction m with
  | zero => omega
  | succ m ih =>
    have h1 := W_up ha hb (show m < n by omega) (hU m (by omega) (by omega))
    rcases Nat.lt_or_ge j m with h | h
    · exact (ih (by omega) h fun i hi hi' => hU i hi (by omega)).trans h1
    · rw [show j = m by omega]; exact h1

theorem poch_le (ha : 0 < a) (hab : a ≤ b) (n : ℕ) : mp.poch a n ≤ mp.poch b n := by
  induction n with
  | zero => exact le_rfl
  | succ n ih => exact mul_le_mul ih (by linarith) (by positivity) (poch_pos (by linarith) n).le

theorem poch_lt (ha : 0 < a) (hab : a < b) (hn : 0 < n) : mp.poch a n < mp.poch b n := by
  obtain ⟨m, rfl⟩ := Nat.exists_eq_succ_of_ne_zero hn.ne'
  exact mul_lt_mul_of_le_of_lt_of_nonneg_of_pos (poch_le ha hab.le m) (by linarith) (by positivity) (poch_pos (by linarith) m)

theorem W_ends (n : ℕ) (a b : ℝ) : W n a b 0 = mp.poch b n / mp.poch (a + b) n ∧ W n a b n = mp.poch a n / mp.poch (a + b) n := by
  simp [W, mp.poch]

/-- C36 `mode` is the smallest most probable value. -/
theorem isMode (n : ℕ) (ha : 0 < a) (hb : 0 < b) : IsDMode Set.univ (fun k => pmf k n (fin a) (fin b)) (mode n (fin a) (fin b)) := by
  have hD := poch_pos (add_pos ha hb) n
  have key : ∀ m : ℕ, m ≤ n → (∀ j ≤ n, W n a b j ≤ W n a b m ∧ (j < m → W n a b j < W n a b m)) → mode n (fin a) (fin b) = .ok (m:ℤ) →
      IsDMode Set.univ (fun k => pmf k n (fin a) (fin b)) (mode n (fin a) (fin b)) := by
    intro m hm hW hmode
    have hall : ∀ j : ℤ, extZ (W n a b) j ≤ extZ (W n a b) m ∧ (j < m → extZ (W n a b) j < extZ (W n a b) m) := by
      refine forall_int (fun j => ?_) (fun j hj => ?_)
      · rw [extZ_nat, extZ_nat]
        rcases le_or_gt j n with h | h
        · exact ⟨(hW j h).1, fun h' => (hW j h).2 (by omega)⟩
        · rw [W_zero a b h]; exact ⟨W_nonneg ha hb m, fun _ => W_pos ha hb hm⟩
      · rw [extZ_neg _ hj, extZ_nat]; exact ⟨W_nonneg ha hb m, fun _ => W_pos ha hb hm⟩
    exact ⟨_, m, mass_univ (pmf_eval n ha hb), hmode, Set.mem_univ _, fun j => (hall j).1, fun j => (hall j).2⟩
  by_cases c1 : a ≤ 1 ∧ a ≤ b
  · refine key 0 (Nat.zero_le n) (fun j hj => ⟨?_, fun h => absurd h (Nat.not_lt_zero _)⟩) ?_
    · by_cases hU : ∀ i < j, U n a b i ≤ 0
      · exact W_le_zero ha hb hj hU
      · push Not at hU
        obtain ⟨i, hi, hi2⟩ := hU
        have hi' : (i:ℝ) + 1 ≤ n := by exact_mod_cast (by omega : i + 1 ≤ n)
        have hab : a + b < 2 := by
          by_contra hc
          push Not at hc
          have : U n a b i ≤ 0 := by
            unfold U
            nlinarith [c1.1, Nat.cast_nonneg (α := ℝ) n, Nat.cast_nonneg (α := ℝ) i, mul_nonneg (Nat.cast_nonneg (α := ℝ) n) (sub_nonneg.2 c1.1),
              mul_nonneg (Nat.cast_nonneg (α := ℝ) i) (sub_nonneg.2 hc)]
          linarith
        have h1 : W n a b j ≤ W n a b n := by
          rcases hj.eq_or_lt with rfl | hj'
          · exact le_rfl
          · refine (W_lt_last ha hb le_rfl hj' fun l hl _ => ?_).le
            have : (i:ℝ) ≤ l := by exact_mod_cast (by omega : i ≤ l)
            unfold U at hi2 ⊢
            nlinarith
        refine h1.trans ?_
        rw [(W_ends n a b).1, (W_ends n a b).2]
        exact (div_le_div_iff_of_pos_right hD).2 (poch_le ha c1.2 n)
    · simp [mode, validate_ok n ha hb, c1]
  · by_cases c2 : b ≤ 1 ∧ b < a
    · refine key n le_rfl (fun j hj => ?_) ?_
      · have hlt : j < n → W n a b j < W n a b n := by
          intro hjn
          by_cases hU : ∀ i, j ≤ i → i < n → 0 < U n a b i
          · exact W_lt_last ha hb le_rfl hjn hU
          · push Not at hU
            obtain ⟨i, hi, hin, hi2⟩ := hU
            have hi' : (i:ℝ) + 1 ≤ n := by exact_mod_cast hin
            have hab : a + b < 2 := by
              by_contra hc
              push Not at hc
              have : 0 < U n a b i := by
                unfold U
                have : 0 ≤ (n - 1 - (i:ℝ)) * (a + b - 2) := mul_nonneg (by linarith) (by linarith)
                have h3 : 0 ≤ (n:ℝ) * (1 - b) := mul_nonneg (Nat.cast_nonneg n) (by linarith)
                rcases c2.1.eq_or_lt with rfl | hb1
                · nlinarith [c2.2]
                · nlinarith
              linarith
            have h1 : W n a b j ≤ W n a b 0 := by
              refine W_le_zero ha hb hj fun l hl => ?_
              have : (l:ℝ) ≤ i := by exact_mod_cast (by omega : l ≤ i)
              unfold U at hi2 ⊢
              nlinarith
            refine h1.trans_lt ?_
            rw [(W_ends n a b).1, (W_ends n a b).2]
            exact (div_lt_div_iff_of_pos_right hD).2 (poch_lt hb c2.2 (by omega))
        rcases hj.eq_or_lt with rfl | hj'
        · exact ⟨le_rfl, hlt⟩
        · exact ⟨(hlt hj').le, hlt⟩
      · simp [mode, validate_ok n ha hb, c1, c2]
    · have ha1 : 1 < a := by
        by_contra hc
        push Not at hc
        have h1 : b < a := by by_contra h; exact c1 ⟨hc, not_lt.1 h⟩
        exact c2 ⟨by linarith, h1⟩
      have hb1 : 1 < b := by
        by_contra hc
        push Not at hc
        exact c2 ⟨hc, by linarith⟩
      have h2 : 0 < a + b - 2 := by linarith
      set x := ((n:ℝ) + 1) * (a - 1) / (a + b - 2) with hx
      have hxp : 0 < x := div_pos (mul_pos (by positivity) (by linarith)) h2
      have hxn : x < n + 1 := by
        rw [hx, div_lt_iff₀ h2]
        have : (0:ℝ) < n + 1 := by positivity
        nlinarith
      have d1 : 0 < ⌈x⌉ := Int.ceil_pos.2 hxp
      have d2 : ⌈x⌉ ≤ (n:ℤ) + 1 := Int.ceil_le.2 (by push_cast; exact hxn.le)
      obtain ⟨m, hm⟩ := Int.eq_ofNat_of_zero_le (show 0 ≤ ⌈x⌉ - 1 by omega)
      have hmc : (⌈x⌉:ℝ) = m + 1 := by
        have : ⌈x⌉ = m + 1 := by omega
        rw [this]; push_cast; rfl
      have c3 := Int.le_ceil x
      have c4 := Int.ceil_lt_add_one x
      rw [hmc] at c3 c4
      have hx2 : x * (a + b - 2) = (n + 1) * (a - 1) := by rw [hx]; field_simp
      have up : ∀ k < m, W n a b k < W n a b (k + 1) := by
        intro k hk
        have hk' : (k:ℝ) + 1 ≤ m := by exact_mod_cast hk
        refine W_up ha hb (by omega) ?_
        unfold U
        nlinarith
      have down : ∀ k ≥ m, W n a b (k + 1) ≤ W n a b k := by
        intro k hk
        rcases Nat.lt_or_ge k n with h | h
        · have hk' : (m:ℝ) ≤ k := by exact_mod_cast hk
          refine W_down ha hb h ?_
          unfold U
          nlinarith
        · rw [W_zero a b (by omega)]; exact W_nonneg ha hb k
      have hmn : m ≤ n := by omega
      refine key m hmn (fun j _ => ?_) ?_
      · have := unimodal up down (W_pos ha hb hmn) j
        simpa using this
      · have hc1 : ¬ (a ≤ 1 ∧ a ≤ b) := c1
        simp only [mode, validate_ok n ha hb, ok_bind, one_def, ofNat_def, fin_le, ge_iff, gt_iff, fin_lt, hc1, c2, if_false, ofInt_def, Int.cast_add,
          Int.cast_natCast, Int.cast_one, fin_sub, fin_add, fin_mul, fin_div _ h2.ne', ← hx, mp.ceil_fin, py.int_cast, pure_eq_ok, hm]

/-- Non-vacuity. -/
example : pmf 1 2 (fin 1) (fin 1) = .ok (fin (1 / 3)) ∧ mode 5 (fin (1 / 2)) (fin (1 / 3)) = .ok 5 := by
  constructor
  · have := pmf_eval 2 (a := 1) (b := 1) one_pos one_pos (1:ℕ)
    rw [extZ_nat] at this
    refine this.trans ?_
    norm_num [W, mp.poch]
  · have hv : validateParams 5 (fin (1 / 2)) (fin (1 / 3)) = _ := validate_ok 5 (a := 1 / 2) (b := 1 / 3) (by norm_num) (by norm_num)
    rw [mode, hv, ok_bind]
    simp only [ge_iff, gt_iff, one_def, fin_le, fin_lt]
    norm_num

end Mpsci.betabinomial
