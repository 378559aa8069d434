import Verif.Lemmas.Disc.TruncDiscreteExp

/-! Properties of the truncated discrete exponential distribution. -/

namespace Mpsci.trunc_discrete_exp

open Classical Num Spec

variable {lam : ℝ} {n : ℕ}

theorem validate_ok (h : 0 ≤ lam) (n : ℕ) : validateParams (fin lam) n = .ok (fin lam, (n:ℤ)) := by
  have : ¬ (n:ℤ) < 0 := by omega
  simp [validateParams, h.not_gt]

theorem validate_bad {n : ℤ} (h : lam < 0 ∨ n < 0) : validateParams (fin lam) n = .error .valueError := by
  by_cases hn : n < 0
  · simp [validateParams, hn]
  · simp [validateParams, hn, h.resolve_right hn]

/-- C33, C07 invalid parameters are rejected by every function, except `mode`. -/
theorem rejects {n : ℤ} (h : lam < 0 ∨ n < 0) (k : ℤ) : pmf k (fin lam) n = .error .valueError ∧
    logpmf k (fin lam) n = .error .valueError ∧ cdf k (fin lam) n = .error .valueError ∧ sf k (fin lam) n = .error .valueError ∧
    mean (fin lam) n = .error .valueError ∧ var (fin lam) n = .error .valueError ∧ entropy (fin lam) n = .error .valueError ∧
    support (fin lam) n = .error .valueError := by
  simp [pmf, logpmf, cdf, sf, mean, var, entropy, support, validate_bad h]

/-- C07: `mode` returns 0 for parameters that all other functions reject. -/
theorem mode_invalid : mode (fin (-1)) 3 = .ok 0 ∧ ∀ k, pmf k (fin (-1)) 3 = .error .valueError :=
  ⟨rfl, fun k => (rejects (Or.inl (by norm_num)) k).1⟩

theorem exp_mul (lam : ℝ) (k : ℕ) : Real.exp (-lam * k) = Real.exp (-lam) ^ k := by
  rw [← Real.exp_nat_mul]; congr 1; ring

theorem exp_lt_one (h : 0 < lam) : Real.exp (-lam) < 1 := Real.exp_lt_one_iff.2 (by linarith)

theorem logpmf_eval (h : 0 ≤ lam) {k : ℕ} (hk : k < n) : logpmf k (fin lam) n = .ok (fin (Real.log (T (Real.exp (-lam)) n k))) := by
  have h1 : ¬ (k:ℤ) < 0 := by omega
  have h2 : ¬ (k:ℤ) ≥ n := by omega
  have hn : (0:ℝ) < n := by exact_mod_cast (by omega : 0 < n)
  rw [T, if_pos hk]
  rcases h.eq_or_lt with rfl | h
  · simp only [logpmf, validate_ok le_rfl, ok_bind, h1, h2, if_false, zero_def, fin_eq, if_true, ofInt_def, Int.cast_natCast, mp.log_pos hn, pure_eq_ok,
      neg_fin]
    rw [neg_zero, Real.exp_zero, one_pow, G_one, one_div, Real.log_inv]
  · have hq := exp_lt_one h
    have hq0 := Real.exp_pos (-lam)
    have hqn : Real.exp (-lam) ^ n < 1 := pow_lt_one₀ hq0.le hq (by omega)
    have e1 := mp.log1p_pos (x := -Real.exp (-lam)) (by linarith)
    have e2 := mp.log1p_pos (x := -Real.exp (-lam) ^ n) (by linarith)
    simp only [logpmf, validate_ok h.le, ok_bind, h1, h2, if_false, zero_def, fin_eq, h.ne', ofInt_def, Int.cast_natCast, neg_fin, fin_mul, mp.exp_fin,
      exp_mul, e1, e2, fin_sub, pure_eq_ok]
    have h3 : 0 < 1 - Real.exp (-lam) := by linarith
    have h4 : 0 < 1 - Real.exp (-lam) ^ n := by linarith
    rw [G_eq hq.ne, Real.log_div (by positivity) (by positivity), Real.log_div h4.ne' h3.ne', Real.log_pow, Real.log_exp]
    simp only [← sub_eq_add_neg]
    congr 2; ring

theorem pmf_eval (h : 0 ≤ lam) (n : ℕ) (k : ℤ) : pmf k (fin lam) n = .ok (fin (extZ (T (Real.exp (-lam)) n) k)) := by
  revert k
  refine forall_int (fun k => ?_) (fun k hk => ?_)
  · rw [extZ_nat]
    have h1 : ¬ (k:ℤ) < 0 := by omega
    by_cases hk : k < n
    · have h2 : ¬ (k:ℤ) ≥ n := by omega
      have hn : (n:ℝ) ≠ 0 := by exact_mod_cast (by omega : n ≠ 0)
      by_cases h3 : lam = 0
      · subst h3
        simp only [pmf, validate_ok le_rfl, ok_bind, h1, h2, if_false, zero_def, fin_eq, if_true, ofInt_def, Int.cast_natCast, one_def, fin_div _ hn,
          pure_eq_ok]
        rw [T, if_pos hk, neg_zero, Real.exp_zero, one_pow, G_one]
      · simp only [pmf, validate_ok h, ok_bind, h1, h2, if_false, zero_def, fin_eq, h3, logpmf_eval h hk, pure_eq_ok, mp.exp_fin,
          Real.exp_log (T_pos (Real.exp_pos (-lam)) hk)]
    · have h2 : (k:ℤ) ≥ n := by omega
      simp only [pmf, validate_ok h, ok_bind, h1, h2, if_false, if_true, T, if_neg hk, pure_eq_ok, zero_def]
  · simp [pmf, validate_ok h, hk, extZ_neg _ hk]

/-- C33 `pmf` is a probability mass function on `0, ..., n-1`, for `n >= 1`. -/
theorem isPmf (h : 0 ≤ lam) (hn : 0 < n) : IsPmf Set.univ {k | 0 ≤ k ∧ k < n} fun k => pmf k (fin lam) n := by
  refine ⟨Set.subset_univ _, _, mass_univ (pmf_eval h n), ?_, ?_, hasSum_extZ (T_sum (Real.exp_pos _) hn)⟩
  · exact forall_int (fun k => by rw [extZ_nat]; exact T_nonneg (Real.exp_pos _) k) (fun k hk => by rw [extZ_neg _ hk])
  · refine forall_int (fun k hk => ?_) (fun k hk _ => extZ_neg _ hk)
    rw [extZ_nat, T, if_neg]
    simpa using hk

/-- C33 `support` lists the points of the support. -/
theorem support_eval (h : 0 ≤ lam) (n : ℕ) : ∃ l, support (fin lam) n = .ok l ∧ ∀ k, k ∈ l ↔ 0 ≤ k ∧ k < n :=
  ⟨py.range 0 n, by simp [support, validate_ok h], fun k => py.mem_range⟩

/-- C33, C34, C37: `n = 0` is accepted as valid, although there is then no distribution: `pmf` is zero everywhere, `cdf` is 1 and
`mean` is -1/2 if `lam = 0` and divides by zero otherwise. -/
theorem n_zero (h : 0 < lam) (k : ℤ) : pmf k (fin lam) 0 = .ok 0 ∧ mean 0 0 = .ok (fin (-1 / 2)) ∧ mean (fin lam) 0 = .error .zeroDivision := by
  refine ⟨?_, ?_, ?_⟩
  · have := pmf_eval h.le 0 k
    refine this.trans ?_
    congr 2
    revert k
    exact fun k _ => forall_int (fun k => by simp [T]) (fun k hk => extZ_neg _ hk) k
  · have := validate_ok (lam := 0) le_rfl 0
    simp only [Nat.cast_zero] at this
    simp [mean, this]
  · have := validate_ok h.le 0
    simp only [Nat.cast_zero] at this
    have h1 : Real.exp (-lam) - 1 ≠ 0 := by linarith [exp_lt_one h]
    simp [mean, this, h.ne', mp.expm1_fin, fin_div _ h1]

theorem sum_upto (q : ℝ) {k n : ℕ} (h : k < n) : HasSum (fun j : ℤ => if j ≤ (k:ℤ) then extZ (T q n) j else 0) (G q (k + 1) / G q n) := by
  have := hasSum_le (f := extZ (T q n)) (fun j hj => extZ_neg _ hj) k
  rw [← T_upto q h]
  simpa using this

theorem sum_all (hq : 0 < q) {n : ℕ} (hn : 0 < n) {k : ℤ} (h : n ≤ k) : HasSum (fun j : ℤ => if j ≤ k then extZ (T q n) j else 0) 1 := by
  refine hasSum_of (hasSum_extZ (T_sum hq hn)) (fun j => ?_) rfl
  by_cases hj : j ≤ k
  · rw [if_pos hj]
  · rw [if_neg hj]
    obtain ⟨i, rfl⟩ := Int.eq_ofNat_of_zero_le (show 0 ≤ j by omega)
    rw [extZ_nat, T, if_neg (by omega)]

/-- C34 `cdf(k)` is the sum of the probabilities of `0, ..., k`, for every integer `k`. -/
theorem isSumCdf (h : 0 ≤ lam) (hn : 0 < n) : IsSumCdf Set.univ Set.univ (fun k => pmf k (fin lam) n) (fun k => cdf k (fin lam) n) := by
  refine ⟨_, mass_univ (pmf_eval h n), ?_⟩
  refine forall_int (fun k _ => ?_) (fun k hk _ => ⟨0, by simp [cdf, validate_ok h, hk], hasSum_le_neg (fun j hj => extZ_neg _ hj) hk⟩)
  have h1 : ¬ (k:ℤ) < 0 := by omega
  have hn' : (n:ℝ) ≠ 0 := by exact_mod_cast (by omega : n ≠ 0)
  by_cases hk : k < n
  · refine ⟨_, ?_, sum_upto _ hk⟩
    have h2 : ¬ (k:ℤ) ≥ n := by omega
    rcases h.eq_or_lt with rfl | h
    · simp only [cdf, validate_ok le_rfl, ok_bind, h1, h2, if_false, zero_def, fin_eq, if_true, ofInt_def, Int.cast_natCast, one_def, fin_add, fin_div _ hn',
        pure_eq_ok]
      rw [neg_zero, Real.exp_zero, G_one, G_one, Nat.cast_succ]
    · have hq := exp_lt_one h
      have hq0 := Real.exp_pos (-lam)
      have hqn : Real.exp (-lam) ^ n < 1 := pow_lt_one₀ hq0.le hq (by omega)
      have h3 : Real.exp (-lam) ^ n - 1 ≠ 0 := by linarith
      have h4 : 1 - Real.exp (-lam) ^ n ≠ 0 := by linarith
      have h5 : 1 - Real.exp (-lam) ≠ 0 := by linarith
      have e := exp_mul lam (k + 1)
      push_cast at e
      simp only [cdf, validate_ok h.le, ok_bind, h1, h2, if_false, zero_def, fin_eq, h.ne', ofInt_def, Int.cast_natCast, Int.cast_add, Int.cast_one,
        neg_fin, fin_mul, mp.expm1_fin, exp_mul, e, fin_div _ h3]
      rw [G_eq hq.ne, G_eq hq.ne]
      congr 2
      rw [div_div_div_cancel_right₀ h5, ← neg_div_neg_eq, neg_sub, neg_sub]
  · exact ⟨1, by have h2 : (k:ℤ) ≥ n := by omega
                 simp only [cdf, validate_ok h, ok_bind, h1, h2, if_false, if_true, pure_eq_ok, one_def],
      sum_all (Real.exp_pos _) hn (by omega)⟩

/-- C34 `sf(k)` is the sum of the probabilities of `k+1, ..., n-1`, for every integer `k`. -/
theorem isSumSf (h : 0 ≤ lam) (hn : 0 < n) : IsSumSf Set.univ Set.univ (fun k => pmf k (fin lam) n) (fun k => sf k (fin lam) n) := by
  refine ⟨_, mass_univ (pmf_eval h n), ?_⟩
  have hT := hasSum_extZ (T_sum (Real.exp_pos (-lam)) hn)
  refine forall_int (fun k _ => ?_) (fun k hk _ => ⟨1, by simp [sf, validate_ok h, hk], ?_⟩)
  · have h1 : ¬ (k:ℤ) < 0 := by omega
    have hn' : (n:ℝ) ≠ 0 := by exact_mod_cast (by omega : n ≠ 0)
    by_cases hk : k < n
    · refine ⟨_, ?_, hasSum_gt hT (sum_upto _ hk)⟩
      have h2 : ¬ (k:ℤ) ≥ n := by omega
      rcases h.eq_or_lt with rfl | h
      · simp only [sf, validate_ok le_rfl, ok_bind, h1, h2, if_false, zero_def, fin_eq, if_true, ofInt_def, Int.cast_natCast, Int.cast_sub, one_def,
          fin_sub, fin_div _ hn', pure_eq_ok]
        rw [neg_zero, Real.exp_zero, G_one, G_one, Nat.cast_succ]
        congr 2
        field_simp
        ring
      · have hq := exp_lt_one h
        have hq0 := Real.exp_pos (-lam)
        have hqn : Real.exp (-lam) ^ n < 1 := pow_lt_one₀ hq0.le hq (by omega)
        have h4 : 1 - Real.exp (-lam) ^ n ≠ 0 := by linarith
        have h5 : 1 - Real.exp (-lam) ≠ 0 := by linarith
        have h6 := pow_pos hq0 n
        have e1 : Real.exp (lam * n) = (Real.exp (-lam) ^ n)⁻¹ := by rw [← exp_mul, ← Real.exp_neg]; congr 1; ring
        have e2 : Real.exp (lam * ((n:ℝ) - k - 1)) = Real.exp (-lam) ^ (k + 1) * (Real.exp (-lam) ^ n)⁻¹ := by
          rw [← exp_mul, ← e1, ← Real.exp_add]; push_cast; congr 1; ring
        have h3 : (Real.exp (-lam) ^ n)⁻¹ - 1 ≠ 0 := by
          have := (one_lt_inv₀ h6).2 hqn
          linarith
        simp only [sf, validate_ok h.le, ok_bind, h1, h2, if_false, zero_def, fin_eq, h.ne', ofInt_def, Int.cast_natCast, Int.cast_sub, Int.cast_one,
          fin_mul, mp.expm1_fin, e1, e2, fin_div _ h3]
        rw [G_eq hq.ne, G_eq hq.ne, div_div_div_cancel_right₀ h5]
        congr 2
        generalize Real.exp (-lam) ^ (k + 1) = a
        generalize Real.exp (-lam) ^ n = b at *
        rw [div_eq_iff h3]
        field_simp
        ring
    · refine ⟨0, ?_, ?_⟩
      · have h2 : (k:ℤ) ≥ n := by omega
        simp only [sf, validate_ok h, ok_bind, h1, h2, if_false, if_true, pure_eq_ok, zero_def]
      · have := hasSum_gt hT (sum_all (Real.exp_pos (-lam)) hn (show (n:ℤ) ≤ k by omega))
        rwa [sub_self] at this
  · have := hasSum_gt hT (hasSum_le_neg (fun j hj => extZ_neg _ hj) hk)
    rwa [sub_zero] at this

/-- C35 `logpmf` is the logarithm of `pmf`, `-inf` where that is zero. -/
theorem isLogPmf (h : 0 ≤ lam) (n : ℕ) : IsLogPmf Set.univ (fun k => pmf k (fin lam) n) (fun k => logpmf k (fin lam) n) := by
  intro k hk
  clear hk
  refine ⟨_, ?_, pmf_eval h n k, ?_⟩
  · revert k
    exact forall_int (fun k => by rw [extZ_nat]; exact T_nonneg (Real.exp_pos _) k) (fun k hk => by rw [extZ_neg _ hk])
  · revert k
    refine forall_int (fun k => ?_) (fun k hk => ?_)
    · rw [extZ_nat]
      by_cases hk : k < n
      · rw [if_neg (T_pos (Real.exp_pos _) hk).ne']; exact logpmf_eval h hk
      · have h1 : ¬ (k:ℤ) < 0 := by omega
        have h2 : (k:ℤ) ≥ n := by omega
        simp only [logpmf, validate_ok h, ok_bind, h1, h2, if_false, if_true, T, if_neg hk, pure_eq_ok]
    · simp [logpmf, validate_ok h, hk, extZ_neg _ hk]

/-- C36 `mode` is the smallest most probable value. -/
theorem isMode (h : 0 ≤ lam) (hn : 0 < n) : IsDMode Set.univ (fun k => pmf k (fin lam) n) (mode (fin lam) n) := by
  have hq0 := Real.exp_pos (-lam)
  have hq1 : Real.exp (-lam) ≤ 1 := Real.exp_le_one_iff.2 (by linarith)
  have down : ∀ k ≥ 0, T (Real.exp (-lam)) n (k + 1) ≤ T (Real.exp (-lam)) n k := fun k _ => by
    by_cases hk : k + 1 < n
    · rw [T, if_pos hk, T, if_pos (by omega), pow_succ]
      have := G_pos hq0 hn
      gcongr
      nlinarith [pow_pos hq0 k]
    · rw [T, if_neg hk]; exact T_nonneg hq0 k
  have key := fun j => unimodal (m := 0) (fun k hk => absurd hk (Nat.not_lt_zero _)) down (T_pos hq0 hn) j
  exact ⟨_, ((0:ℕ):ℤ), mass_univ (pmf_eval h n), rfl, Set.mem_univ _, fun j => (key j).1, fun j => (key j).2⟩

/-- The mean. -/
noncomputable def mu (lam : ℝ) (n : ℕ) : ℝ := if lam = 0 then ((n:ℝ) - 1) / 2 else
  Real.exp (-lam) / (1 - Real.exp (-lam)) - n * Real.exp (-lam) ^ n / (1 - Real.exp (-lam) ^ n)

theorem mean_eval (h : 0 ≤ lam) (hn : 0 < n) : mean (fin lam) n = .ok (fin (mu lam n)) := by
  rw [mu]
  split_ifs with h1
  · subst h1
    simp only [mean, validate_ok le_rfl, ok_bind, zero_def, fin_eq, if_true, ofInt_def, Int.cast_natCast, one_def, fin_sub, ofNat_def,
      fin_div _ (two_ne_zero' ℝ), pure_eq_ok]
  · have h := lt_of_le_of_ne h (Ne.symm h1)
    have hq := exp_lt_one h
    have hq0 := Real.exp_pos (-lam)
    have hqn : Real.exp (-lam) ^ n < 1 := pow_lt_one₀ hq0.le hq (by omega)
    have h3 : Real.exp (-lam) ^ n - 1 ≠ 0 := by linarith
    have h4 : Real.exp (-lam) - 1 ≠ 0 := by linarith
    have e : Real.exp (-((n:ℝ) * lam)) = Real.exp (-lam) ^ n := by rw [← exp_mul]; congr 1; ring
    simp only [mean, validate_ok h.le, ok_bind, zero_def, fin_eq, h1, if_false, ofInt_def, Int.cast_natCast, neg_fin, fin_mul, mp.exp_fin, mp.expm1_fin,
      e, fin_div _ h3, fin_div _ h4, fin_add, pure_eq_ok]
    congr 2
    rw [← neg_sub 1 (Real.exp (-lam)), ← neg_sub 1 (Real.exp (-lam) ^ n), neg_div_neg_eq, div_neg, ← sub_eq_add_neg]

theorem T_mean (h : 0 ≤ lam) (hn : 0 < n) : HasSum (fun k : ℤ => (k:ℝ) * extZ (T (Real.exp (-lam)) n) k) (mu lam n) := by
  refine hasSum_of (T_ext (φ := id) (T_hasSum fun k => (k:ℝ))) (fun _ => rfl) ?_
  rw [mu]
  split_ifs with h1
  · subst h1
    have : (n:ℝ) ≠ 0 := by exact_mod_cast hn.ne'
    rw [neg_zero, Real.exp_zero, sum1_one, G_one]
    field_simp
  · have h := lt_of_le_of_ne h (Ne.symm h1)
    have hq := exp_lt_one h
    have hq0 := Real.exp_pos (-lam)
    have hqn : Real.exp (-lam) ^ n < 1 := pow_lt_one₀ hq0.le hq (by omega)
    have h4 : 1 - Real.exp (-lam) ^ n ≠ 0 := by linarith
    have h5 : 1 - Real.exp (-lam) ≠ 0 := by linarith
    have e := sum1 (Real.exp (-lam)) n
    rw [mul_comm, ← eq_div_iff (pow_ne_zero 2 h5)] at e
    rw [e, G_eq hq.ne]
    generalize Real.exp (-lam) ^ n = b at h4 ⊢
    generalize Real.exp (-lam) = q at h5 ⊢
    field_simp
    ring

/-- C37 `mean` is the expected value. -/
theorem isMean (h : 0 ≤ lam) (hn : 0 < n) : IsDMean Set.univ (fun k => pmf k (fin lam) n) (mean (fin lam) n) :=
  ⟨_, _, mass_univ (pmf_eval h n), mean_eval h hn, T_mean h hn⟩

/-- C37 `var` is the variance. -/
theorem isVar (h : 0 ≤ lam) (hn : 0 < n) : IsDVar Set.univ (fun k => pmf k (fin lam) n) (mean (fin lam) n) (var (fin lam) n) := by
  have hs := T_ext (φ := fun k => k * (k - 1)) (T_hasSum (q := Real.exp (-lam)) (n := n) fun k => (k:ℝ) * ((k:ℝ) - 1))
  have hv := hasSum_var (hasSum_extZ (T_sum (Real.exp_pos (-lam)) hn)) (T_mean h hn) hs
  refine ⟨_, _, _, mass_univ (pmf_eval h n), mean_eval h hn, ?_, T_mean h hn, hv⟩
  rw [mu]
  split_ifs with h1
  · subst h1
    have : (n:ℝ) ≠ 0 := by exact_mod_cast hn.ne'
    have h12 : (12:ℝ) ≠ 0 := by norm_num
    simp only [var, validate_ok le_rfl, ok_bind, zero_def, fin_eq, if_true, ofInt_def, Int.cast_natCast, one_def, mp.ipow_fin, fin_sub, ofNat_def,
      fin_div _ h12, pure_eq_ok, neg_zero, Real.exp_zero, sum2_one, G_one]
    congr 2
    field_simp
    ring
  · have h := lt_of_le_of_ne h (Ne.symm h1)
    have hq := exp_lt_one h
    have hq0 := Real.exp_pos (-lam)
    have hqn : Real.exp (-lam) ^ n < 1 := pow_lt_one₀ hq0.le hq (by omega)
    have h3 : Real.exp (-lam) ^ n - 1 ≠ 0 := by linarith
    have h4 : Real.exp (-lam) - 1 ≠ 0 := by linarith
    have h3' : 1 - Real.exp (-lam) ^ n ≠ 0 := by linarith
    have h4' : 1 - Real.exp (-lam) ≠ 0 := by linarith
    have e : Real.exp (-((n:ℝ) * lam)) = Real.exp (-lam) ^ n := by rw [← exp_mul]; congr 1; ring
    have e2 := sum2 (Real.exp (-lam)) n
    rw [mul_comm, ← eq_div_iff (pow_ne_zero 3 h4')] at e2
    simp only [var, validate_ok h.le, ok_bind, zero_def, fin_eq, h1, if_false, ofInt_def, Int.cast_natCast, neg_fin, fin_mul, mp.exp_fin, mp.expm1_fin,
      mp.ipow_fin, e, fin_div _ (pow_ne_zero 2 h3), fin_div _ (pow_ne_zero 2 h4), fin_sub, pure_eq_ok]
    rw [e2, G_eq hq.ne]
    congr 2
    generalize Real.exp (-lam) ^ n = b at h3 h3' ⊢
    generalize Real.exp (-lam) = q at h4 h4' ⊢
    rw [← neg_sub 1 q, ← neg_sub 1 b, neg_sq, neg_sq]
    field_simp
    ring

/-- C37 `entropy` is the entropy. -/
theorem isEntropy (h : 0 ≤ lam) (hn : 0 < n) : IsDEntropy Set.univ (fun k => pmf k (fin lam) n) (entropy (fin lam) n) := by
  have hq0 := Real.exp_pos (-lam)
  have h1 := hasSum_extZ (T_sum hq0 hn)
  have hs := (h1.mul_left (-Real.log (T (Real.exp (-lam)) n 0))).add ((T_mean h hn).mul_left lam)
  refine ⟨_, _, mass_univ (pmf_eval h n), hasSum_of hs (fun k => ?_) rfl, ?_⟩
  · revert k
    refine forall_int (fun k => ?_) (fun k hk => by rw [extZ_neg _ hk]; simp)
    simp only [extZ_nat, Int.cast_natCast]
    by_cases hk : k < n
    · have hG := G_pos hq0 hn
      have e : Real.log (T (Real.exp (-lam)) n k) = Real.log (T (Real.exp (-lam)) n 0) - lam * k := by
        rw [T, if_pos hk, T, if_pos hn, Real.log_div (by positivity) hG.ne', Real.log_div (by positivity) hG.ne', Real.log_pow, Real.log_exp,
          pow_zero, Real.log_one]
        ring
      rw [e]; ring
    · rw [T, if_neg hk]; simp
  · have e := logpmf_eval h (k := 0) hn
    rw [Nat.cast_zero] at e
    simp only [entropy, validate_ok h, ok_bind, e, mean_eval h hn, neg_fin, fin_mul, fin_add, pure_eq_ok, mul_one]

/-- Non-vacuity. -/
example : pmf 1 0 2 = .ok (fin (1 / 2)) := by
  have := pmf_eval (lam := 0) le_rfl 2 (1:ℕ)
  rw [extZ_nat] at this
  refine this.trans ?_
  norm_num [T, G_one]

end Mpsci.trunc_discrete_exp
