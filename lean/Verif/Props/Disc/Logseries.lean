import Verif.Lemmas.Disc.Logseries
import Verif.Lemmas.DiscMoments
import Verif.Lemmas.Common

/-! Properties of the logarithmic series distribution. -/

namespace Mpsci.logseries

open Classical Num Spec common

variable {p : ℝ}

/-- C33, C07 an invalid `p` is rejected by every function. -/
theorem rejects (h : p < 0 ∨ 1 < p) (k : ℤ) : pmf k (fin p) = .error .valueError ∧ logpmf k (fin p) = .error .valueError ∧
    cdf k (fin p) = .error .valueError ∧ sf k (fin p) = .error .valueError ∧ mean (fin p) = .error .valueError ∧
    var (fin p) = .error .valueError ∧ mode (fin p) = .error .valueError ∧ skewness (fin p) = .error .valueError ∧
    kurtosis (fin p) = .error .valueError := by
  simp [pmf, logpmf, cdf, sf, mean, var, mode, skewness, kurtosis, validateP_bad h]

theorem log1p_eval (h1 : p < 1) : mp.log1p (fin (-p)) = .ok (fin (Real.log (1 - p))) := by
  rw [mp.log1p_pos (by linarith), sub_eq_add_neg]

/-- The value of `logpmf` on the support. -/
theorem logpmf_eval (h0 : 0 < p) (h1 : p < 1) {k : ℕ} (hk : 0 < k) : logpmf k (fin p) = .ok (fin (Real.log (S p k))) := by
  have hL := L_pos h0 h1
  have hk' : (0:ℝ) < k := by exact_mod_cast hk
  have h2 : ¬ (k:ℤ) < 1 := by omega
  simp only [logpmf, validateP_ok h0.le h1.le, ok_bind, h2, if_false, mp.log_pos h0, ofInt_def, Int.cast_natCast, mp.log_pos hk',
    log1p_eval h1, neg_fin, mp.log_pos hL, fin_mul, fin_sub, pure_eq_ok]
  rw [S, Real.log_div (by positivity) (by positivity), Real.log_mul hk'.ne' hL.ne', Real.log_pow]
  congr 2; ring

theorem pmf_eval (h0 : 0 < p) (h1 : p < 1) (k : ℤ) : pmf k (fin p) = .ok (fin (extZ (S p) k)) := by
  revert k
  refine forall_int (fun k => ?_) (fun k hk => ?_)
  · rw [extZ_nat]
    rcases Nat.eq_zero_or_pos k with rfl | hk
    · simp [pmf, validateP_ok h0.le h1.le, S_zero]
    · have h2 : ¬ (k:ℤ) < 1 := by omega
      simp only [pmf, validateP_ok h0.le h1.le, ok_bind, h2, if_false, logpmf_eval h0 h1 hk, pure_eq_ok, mp.exp_fin,
        Real.exp_log (S_pos h0 h1 hk)]
  · have h2 : k < 1 := by omega
    simp [pmf, validateP_ok h0.le h1.le, h2, extZ_neg _ hk]

/-- C33 `pmf` is a probability mass function on the positive integers. -/
theorem isPmf (h0 : 0 < p) (h1 : p < 1) : IsPmf Set.univ (Set.Ici 1) fun k => pmf k (fin p) := by
  refine ⟨Set.subset_univ _, _, mass_univ (pmf_eval h0 h1), ?_, ?_, hasSum_extZ (S_sum h0 h1)⟩
  · exact forall_int (fun k => by rw [extZ_nat]; exact S_nonneg h0 h1 k) (fun k hk => by rw [extZ_neg _ hk])
  · refine forall_int (fun k hk => ?_) (fun k hk _ => extZ_neg _ hk)
    have : k = 0 := by simpa using hk
    rw [this, extZ_nat, S_zero]

theorem sum_upto (p : ℝ) (k : ℕ) : HasSum (fun j : ℤ => if j ≤ (k:ℤ) then extZ (S p) j else 0)
    (∑ j ∈ Finset.range (k + 1), S p j) := by
  have := hasSum_le (f := extZ (S p)) (fun j hj => extZ_neg _ hj) k
  simpa using this

theorem betainc_eval (h0 : 0 < p) (h1 : p < 1) (k : ℕ) : mp.betaincZero (fin ((k:ℝ) + 1)) (fin p) =
    .ok (fin (∫ t in (0:ℝ)..p, t ^ ((k:ℝ) + 1 - 1) / (1 - t))) := by
  have : (0:ℝ) < k + 1 := by positivity
  simp [mp.betaincZero, this, h0.le, h1]

/-- C34 `cdf(k)` is the sum of the probabilities of `1, ..., k`, for every integer `k`. -/
theorem isSumCdf (h0 : 0 < p) (h1 : p < 1) : IsSumCdf Set.univ Set.univ (fun k => pmf k (fin p)) (fun k => cdf k (fin p)) := by
  refine ⟨_, mass_univ (pmf_eval h0 h1), ?_⟩
  refine forall_int (fun k _ => ⟨_, ?_, sum_upto p k⟩) (fun k hk _ =>
    ⟨0, by have h2 : k < 1 := by omega
           simp [cdf, validateP_ok h0.le h1.le, h2], hasSum_le_neg (fun j hj => extZ_neg _ hj) hk⟩)
  have hL := L_pos h0 h1
  rcases Nat.eq_zero_or_pos k with rfl | hk
  · simp [cdf, validateP_ok h0.le h1.le, S_zero]
  · have h2 : ¬ (k:ℤ) < 1 := by omega
    have h3 : Real.log (1 - p) ≠ 0 := by linarith
    simp only [cdf, validateP_ok h0.le h1.le, ok_bind, h2, if_false, ofInt_def, Int.cast_natCast, betainc_eval h0 h1, log1p_eval h1, neg_fin, fin_div _ h3, one_def, fin_add,
      pure_eq_ok, tail_eq h0 h1 k]
    rw [div_neg, sub_neg_eq_add]

/-- C34 `sf(k)` is the sum of the probabilities of `k+1, k+2, ...`, for every integer `k`. -/
theorem isSumSf (h0 : 0 < p) (h1 : p < 1) : IsSumSf Set.univ Set.univ (fun k => pmf k (fin p)) (fun k => sf k (fin p)) := by
  refine ⟨_, mass_univ (pmf_eval h0 h1), ?_⟩
  refine forall_int (fun k _ => ⟨_, ?_, hasSum_gt (hasSum_extZ (S_sum h0 h1)) (sum_upto p k)⟩)
    (fun k hk _ => ⟨1, by have h2 : k < 1 := by omega
                          simp [sf, validateP_ok h0.le h1.le, h2], ?_⟩)
  · have hL := L_pos h0 h1
    rcases Nat.eq_zero_or_pos k with rfl | hk
    · simp [sf, validateP_ok h0.le h1.le, S_zero]
    · have h2 : ¬ (k:ℤ) < 1 := by omega
      have h3 : Real.log (1 - p) ≠ 0 := by linarith
      simp only [sf, validateP_ok h0.le h1.le, ok_bind, h2, if_false, ofInt_def, Int.cast_natCast, one_def, fin_add, betainc_eval h0 h1, log1p_eval h1, neg_fin, fin_div _ h3, tail_eq h0 h1 k]
      rw [div_neg, neg_div, sub_neg_eq_add, sub_add_cancel_left]
  · have := hasSum_gt (hasSum_extZ (S_sum h0 h1)) (hasSum_le_neg (fun j hj => extZ_neg _ hj) hk)
    rwa [sub_zero] at this

/-- C35 `logpmf` is the logarithm of `pmf`, `-inf` where that is zero. -/
theorem isLogPmf (h0 : 0 < p) (h1 : p < 1) : IsLogPmf Set.univ (fun k => pmf k (fin p)) (fun k => logpmf k (fin p)) := by
  intro k hk
  clear hk
  refine ⟨_, ?_, pmf_eval h0 h1 k, ?_⟩
  · revert k
    exact forall_int (fun k => by rw [extZ_nat]; exact S_nonneg h0 h1 k) (fun k hk => by rw [extZ_neg _ hk])
  · revert k
    refine forall_int (fun k => ?_) (fun k hk => ?_)
    · rw [extZ_nat]
      rcases Nat.eq_zero_or_pos k with rfl | hk
      · simp [logpmf, validateP_ok h0.le h1.le, S_zero]
      · rw [if_neg (S_pos h0 h1 hk).ne']; exact logpmf_eval h0 h1 hk
    · have h2 : k < 1 := by omega
      simp [logpmf, validateP_ok h0.le h1.le, h2, extZ_neg _ hk]

/-- C36 `mode` is the most probable value. -/
theorem isMode (h0 : 0 < p) (h1 : p < 1) : IsDMode Set.univ (fun k => pmf k (fin p)) (mode (fin p)) := by
  have hL := L_pos h0 h1
  have down : ∀ k ≥ 1, S p (k + 1) ≤ S p k := fun k hk => by
    have hk' : (0:ℝ) < k := by exact_mod_cast hk
    rw [S, S, pow_succ]
    push_cast
    refine div_le_div₀ (by positivity) ?_ (by positivity) ?_
    · nlinarith [pow_pos h0 k]
    · nlinarith
  have up : ∀ k < 1, S p k < S p (k + 1) := fun k hk => by
    obtain rfl : k = 0 := by omega
    rw [S_zero]; exact S_pos h0 h1 one_pos
  have key := fun j => unimodal up down (S_pos h0 h1 one_pos) j
  exact ⟨_, ((1:ℕ):ℤ), mass_univ (pmf_eval h0 h1), by simp [mode, validateP_ok h0.le h1.le], Set.mem_univ _, fun j => (key j).1, fun j => (key j).2⟩

theorem L_gt (h0 : 0 < p) (h1 : p < 1) : p < -Real.log (1 - p) := by
  have := Real.add_one_lt_exp (show -p ≠ 0 by linarith)
  have h2 := Real.log_lt_sub_one_of_pos (show 0 < 1 - p by linarith) (by linarith)
  linarith

theorem S_f1 (h0 : 0 < p) (h1 : p < 1) : HasSum (fun k : ℤ => (k:ℝ) * extZ (S p) k) (p / (1 - p) / -Real.log (1 - p)) := by
  have h := S_fact h0 h1 0
  simp only [Nat.descFactorial_zero, Nat.factorial_zero, Nat.cast_one, one_mul, mul_one, zero_add, pow_one] at h
  exact hasSum_int h (fun k hk => by rw [extZ_neg _ hk, mul_zero]) (fun k => by simp)

theorem pred_cast (k : ℕ) (x : ℝ) : (k:ℝ) * ((k - 1 : ℕ) : ℝ) * x = k * (k - 1) * x := by
  cases k with
  | zero => simp
  | succ k => simp

theorem desc2 (k : ℕ) : (k:ℝ) * ((k - 1).descFactorial 2 : ℕ) = k * (k - 1) * (k - 2) := by
  rcases k with _ | _ | k
  · simp
  · simp
  · simp [Nat.descFactorial]; ring

theorem desc3 (k : ℕ) : (k:ℝ) * ((k - 1).descFactorial 3 : ℕ) = k * (k - 1) * (k - 2) * (k - 3) := by
  rcases k with _ | _ | _ | k
  · simp
  · simp
  · simp
  · simp [Nat.descFactorial]; ring

theorem S_f2 (h0 : 0 < p) (h1 : p < 1) : HasSum (fun k : ℤ => (k:ℝ) * ((k:ℝ) - 1) * extZ (S p) k)
    (p ^ 2 / (1 - p) ^ 2 / -Real.log (1 - p)) := by
  have h := S_fact h0 h1 1
  simp only [Nat.descFactorial_one, Nat.factorial_one, Nat.cast_one, one_mul] at h
  exact hasSum_int h (fun k hk => by rw [extZ_neg _ hk, mul_zero]) (fun k => by simp [pred_cast])

theorem S_f3 (h0 : 0 < p) (h1 : p < 1) : HasSum (fun k : ℤ => (k:ℝ) * ((k:ℝ) - 1) * ((k:ℝ) - 2) * extZ (S p) k)
    (2 * p ^ 3 / (1 - p) ^ 3 / -Real.log (1 - p)) := by
  have h := S_fact h0 h1 2
  simp only [desc2, Nat.factorial_two, Nat.cast_ofNat] at h
  exact hasSum_int h (fun k hk => by rw [extZ_neg _ hk, mul_zero]) (fun k => by simp)

theorem S_f4 (h0 : 0 < p) (h1 : p < 1) : HasSum (fun k : ℤ => (k:ℝ) * ((k:ℝ) - 1) * ((k:ℝ) - 2) * ((k:ℝ) - 3) * extZ (S p) k)
    (6 * p ^ 4 / (1 - p) ^ 4 / -Real.log (1 - p)) := by
  have h := S_fact h0 h1 3
  have e : ((Nat.factorial 3 : ℕ) : ℝ) = 6 := by norm_num [Nat.factorial]
  simp only [desc3, e] at h
  exact hasSum_int h (fun k hk => by rw [extZ_neg _ hk, mul_zero]) (fun k => by simp)

theorem mean_eval (h0 : 0 < p) (h1 : p < 1) : mean (fin p) = .ok (fin (p / (1 - p) / -Real.log (1 - p))) := by
  have hL := L_pos h0 h1
  have h2 : p - 1 ≠ 0 := by linarith
  have h2' : 1 - p ≠ 0 := by linarith
  have h3 : Real.log (1 - p) ≠ 0 := by linarith
  simp only [mean, validateP_ok h0.le h1.le, ok_bind, one_def, fin_sub, fin_div _ h2, neg_fin, log1p_eval h1, fin_div _ h3]
  rw [← neg_sub 1 p, div_neg, neg_div, div_neg]

/-- C37 `mean` is the expected value. -/
theorem isMean (h0 : 0 < p) (h1 : p < 1) : IsDMean Set.univ (fun k => pmf k (fin p)) (mean (fin p)) :=
  ⟨_, _, mass_univ (pmf_eval h0 h1), mean_eval h0 h1, S_f1 h0 h1⟩

/-- The variance. -/
theorem S_var (h0 : 0 < p) (h1 : p < 1) :
    HasSum (fun k : ℤ => ((k:ℝ) - p / (1 - p) / -Real.log (1 - p)) ^ 2 * extZ (S p) k)
      (p * (-Real.log (1 - p) - p) / ((1 - p) ^ 2 * (-Real.log (1 - p)) ^ 2)) := by
  have hL := L_pos h0 h1
  have h2 : 1 - p ≠ 0 := by linarith
  refine hasSum_of (hasSum_var (hasSum_extZ (S_sum h0 h1)) (S_f1 h0 h1) (S_f2 h0 h1)) (fun _ => rfl) ?_
  generalize -Real.log (1 - p) = L at hL ⊢
  field_simp
  ring

/-- C37 `var` is the variance. -/
theorem isVar (h0 : 0 < p) (h1 : p < 1) : IsDVar Set.univ (fun k => pmf k (fin p)) (mean (fin p)) (var (fin p)) := by
  have hL := L_pos h0 h1
  have h2 : 1 - p ≠ 0 := by linarith
  have h3 : Real.log (1 - p) ≠ 0 := by linarith
  refine ⟨_, _, _, mass_univ (pmf_eval h0 h1), mean_eval h0 h1, ?_, S_f1 h0 h1, S_var h0 h1⟩
  simp only [var, validateP_ok h0.le h1.le, ok_bind, log1p_eval h1, one_def, fin_sub, fin_add, fin_mul, neg_fin, mp.ipow_fin,
    fin_div _ (pow_ne_zero 2 h2), fin_div _ (pow_ne_zero 2 h3)]
  congr 2
  field_simp
  ring

theorem var_pos (h0 : 0 < p) (h1 : p < 1) : 0 < p * (-Real.log (1 - p) - p) / ((1 - p) ^ 2 * (-Real.log (1 - p)) ^ 2) := by
  have hL := L_pos h0 h1
  have hg : 0 < -Real.log (1 - p) - p := by linarith [L_gt h0 h1]
  have h2 : 0 < 1 - p := by linarith
  positivity

/-- C37 `skewness` is the skewness. -/
theorem isSkewness (h0 : 0 < p) (h1 : p < 1) : IsDSkewness Set.univ (fun k => pmf k (fin p)) (skewness (fin p)) := by
  have hL := L_pos h0 h1
  have hg : 0 < -Real.log (1 - p) - p := by linarith [L_gt h0 h1]
  have h2 : 0 < 1 - p := by linarith
  refine ⟨_, _, _, _, mass_univ (pmf_eval h0 h1), S_f1 h0 h1, S_var h0 h1,
    hasSum_central3 (hasSum_extZ (S_sum h0 h1)) (S_f1 h0 h1) (S_f2 h0 h1) (S_f3 h0 h1), var_pos h0 h1, ?_⟩
  have hlog : Real.log (1 - p) = - -Real.log (1 - p) := by ring
  have e1 := log1p_eval h1
  rw [hlog] at e1
  generalize -Real.log (1 - p) = L at hL hg e1 ⊢
  have hw : 0 < p * (L - p) := mul_pos h0 hg
  have hs : √(p * (L - p)) ≠ 0 := (Real.sqrt_pos.2 hw).ne'
  have e2 : mp.sqrt (fin (-p * (p + -L))) = .ok (fin (√(p * (L - p)))) := by
    rw [show -p * (p + -L) = p * (L - p) by ring, mp.sqrt_nonneg hw.le]
  have hden : -√(p * (L - p)) * (p + -L) ≠ 0 := mul_ne_zero (neg_ne_zero.2 hs) (by linarith)
  simp only [skewness, validateP_ok h0.le h1.le, ok_bind, e1, one_def, ofNat_def, fin_sub, fin_add, fin_mul, neg_fin, mp.ipow_fin, e2,
    fin_div _ hden]
  have e3 : (p * (L - p) / ((1 - p) ^ 2 * L ^ 2)) ^ (3 / 2 : ℝ) = p * (L - p) * √(p * (L - p)) / ((1 - p) * L) ^ 3 := by
    rw [← mul_pow, Real.div_rpow hw.le (by positivity), show (3 / 2 : ℝ) = 1 + 1 / 2 by norm_num, Real.rpow_add hw, Real.rpow_one,
      ← Real.sqrt_eq_rpow, Real.rpow_add (by positivity), Real.rpow_one, ← Real.sqrt_eq_rpow, Real.sqrt_sq (by positivity)]
    ring
  rw [e3]
  generalize √(p * (L - p)) = w at hs hden ⊢
  have h5 : p + -L ≠ 0 := by linarith
  have h6 := hg.ne'
  have h7 := h0.ne'
  congr 2
  rw [div_eq_div_iff hden (by positivity)]
  field_simp
  ring

/-- C37 `kurtosis` is the excess kurtosis. -/
theorem isKurtosis (h0 : 0 < p) (h1 : p < 1) : IsDKurtosis Set.univ (fun k => pmf k (fin p)) (kurtosis (fin p)) := by
  have hL := L_pos h0 h1
  have hg : 0 < -Real.log (1 - p) - p := by linarith [L_gt h0 h1]
  have h2 : 0 < 1 - p := by linarith
  refine ⟨_, _, _, _, mass_univ (pmf_eval h0 h1), S_f1 h0 h1, S_var h0 h1,
    hasSum_central4 (hasSum_extZ (S_sum h0 h1)) (S_f1 h0 h1) (S_f2 h0 h1) (S_f3 h0 h1) (S_f4 h0 h1), var_pos h0 h1, ?_⟩
  have hlog : Real.log (1 - p) = - -Real.log (1 - p) := by ring
  have e1 := log1p_eval h1
  rw [hlog] at e1
  generalize -Real.log (1 - p) = L at hL hg e1 ⊢
  have h5 : p + -L ≠ 0 := by linarith
  have h6 := hg.ne'
  have h7 := h0.ne'
  have hden : p * (p + -L) ^ 2 ≠ 0 := mul_ne_zero h7 (pow_ne_zero 2 h5)
  simp only [kurtosis, validateP_ok h0.le h1.le, ok_bind, e1, fin_sub, fin_add, fin_mul, neg_fin, mp.ipow_fin, fin_div _ hden]
  congr 2
  rw [eq_sub_iff_add_eq, div_add' _ _ _ hden]
  field_simp
  ring

/-- C33, C35, C37: with `p = 0`, which is accepted as valid, `pmf` and `logpmf` return nan at every point of the support, and `mean`
divides by zero. -/
theorem p_zero {k : ℕ} (hk : 0 < k) : pmf k (fin 0) = .ok nan ∧ logpmf k (fin 0) = .ok nan ∧ mean (fin 0) = .error .zeroDivision := by
  have hk' : (0:ℝ) < k := by exact_mod_cast hk
  have h2 : ¬ (k:ℤ) < 1 := by omega
  have hv := validateP_ok (p := 0) le_rfl zero_le_one
  have e1 := log1p_eval (p := 0) one_pos
  rw [sub_zero, Real.log_one, neg_zero] at e1
  have hl : logpmf k (fin 0) = .ok nan := by
    simp only [logpmf, hv, ok_bind, h2, if_false, mp.log_zero, ofInt_def, Int.cast_natCast, mp.log_pos hk', neg_fin, neg_zero, e1,
      fin_mul_ninf, scaleInf_pos hk', pure_eq_ok]
    rfl
  refine ⟨?_, hl, ?_⟩
  · simp only [pmf, hv, ok_bind, h2, if_false, hl]; rfl
  · simp only [mean, hv, ok_bind, one_def, fin_sub, fin_div _ (show (0:ℝ) - 1 ≠ 0 by norm_num), neg_fin, neg_zero, e1, zero_div,
      fin_div_zero]

/-- C33, C37: with `p = 1`, which is accepted as valid, `pmf` is zero everywhere and `mean` divides by zero. -/
theorem p_one (k : ℤ) : pmf k (fin 1) = .ok 0 ∧ mean (fin 1) = .error .zeroDivision := by
  have hv := validateP_ok (p := 1) zero_le_one le_rfl
  have e1 : mp.log1p (fin (-1)) = .ok ninf := by simp [mp.log1p, mp.log_zero]
  refine ⟨?_, ?_⟩
  · by_cases h2 : k < 1
    · simp [pmf, hv, h2]
    · have hk' : (0:ℝ) < k := by exact_mod_cast (by omega : 0 < k)
      have e2 : mp.log pinf = .ok pinf := rfl
      simp only [pmf, logpmf, hv, ok_bind, h2, if_false, mp.log_pos one_pos, ofInt_def, mp.log_pos hk', neg_fin, e1, pure_eq_ok]
      rfl
  · simp [mean, hv]

/-- Non-vacuity. -/
example : ∃ p : ℝ, 0 < p ∧ p < 1 := ⟨1 / 2, by norm_num⟩

end Mpsci.logseries
