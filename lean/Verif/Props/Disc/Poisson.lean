import Verif.Lemmas.Disc.Poisson

/-! Properties of the Poisson distribution. -/

namespace Mpsci.poisson

open Classical Num Spec

variable {lam : ℝ}

theorem validate_ok (h : 0 < lam) : validateLam (fin lam) = .ok (fin lam) := by
  simp [validateLam, h]

theorem pmf_eval (h : 0 < lam) (k : ℤ) : pmf k (fin lam) = .ok (fin (extZ (P lam) k)) := by
  revert k
  refine forall_int (fun k => ?_) (fun k hk => ?_)
  · have hf : (k.factorial : ℝ) ≠ 0 := by exact_mod_cast k.factorial_ne_zero
    simp [pmf, validate_ok h, mp.power_nat h.le, mp.factorial_nat, fin_div _ hf, P]
  · simp [pmf, validate_ok h, hk, extZ_neg]

/-- C33 `pmf` is a probability mass function on the nonnegative integers. -/
theorem isPmf (h : 0 < lam) : IsPmf Set.univ (Set.Ici 0) fun k => pmf k (fin lam) := by
  refine ⟨Set.subset_univ _, _, mass_univ (pmf_eval h), ?_, ?_, hasSum_extZ (P_sum lam)⟩
  · exact forall_int (fun k => by rw [extZ_nat]; exact (P_pos h k).le)
      (fun k hk => by rw [extZ_neg _ hk])
  · intro k hk
    exact extZ_neg _ (by simpa using hk)

/-- C33, C07 a nonpositive `lam` is rejected by every function. -/
theorem rejects (h : lam ≤ 0) (k : ℤ) :
    pmf k (fin lam) = .error .valueError ∧ logpmf k (fin lam) = .error .valueError ∧
    cdf k (fin lam) = .error .valueError ∧ sf k (fin lam) = .error .valueError ∧
    mean (fin lam) = .error .valueError ∧ var (fin lam) = .error .valueError ∧
    mode (fin lam) = .error .valueError := by
  have : validateLam (fin lam) = .error .valueError := by simp [validateLam, h]
  simp [pmf, logpmf, cdf, sf, mean, var, mode, this]

theorem sum_upto (lam : ℝ) (k : ℕ) : HasSum (fun j : ℤ => if j ≤ (k:ℤ) then extZ (P lam) j else 0)
    (∑ j ∈ Finset.range (k + 1), P lam j) := by
  have := hasSum_le (f := extZ (P lam)) (fun j hj => extZ_neg _ hj) k
  simpa using this

/-- C34 `cdf(k)` is the sum of the probabilities of `0, ..., k`, for every integer `k`. -/
theorem isSumCdf (h : 0 < lam) :
    IsSumCdf Set.univ Set.univ (fun k => pmf k (fin lam)) (fun k => cdf k (fin lam)) := by
  refine ⟨_, mass_univ (pmf_eval h), ?_⟩
  refine forall_int (fun k _ => ⟨_, ?_, sum_upto lam k⟩) (fun k hk _ =>
    ⟨0, by simp [cdf, validate_ok h, hk], hasSum_le_neg (fun j hj => extZ_neg _ hj) hk⟩)
  have hk : (0:ℝ) < k + 1 := by positivity
  have hG : Real.Gamma ((k:ℝ) + 1) ≠ 0 := (Real.Gamma_pos_of_pos hk).ne'
  have e := gamma_split hk h.le
  have e2 : (∫ t in Set.Ioi lam, t ^ ((k:ℝ) + 1 - 1) * Real.exp (-t)) = Real.Gamma (k + 1) -
      ∫ t in Set.Ioc 0 lam, t ^ ((k:ℝ) + 1 - 1) * Real.exp (-t) := by linarith
  have hneg : ¬ (k:ℤ) < 0 := by omega
  simp only [cdf, validate_ok h, ok_bind, hneg, if_false, ofInt_def, Int.cast_add, Int.cast_natCast,
    Int.cast_one, mp.gammaincUpperReg, hk, h.le, and_self, if_true, sum_le k h.le, e2, sub_div,
    div_self hG]

/-- C34 `sf(k)` is the sum of the probabilities of `k+1, k+2, ...`, for every integer `k`. -/
theorem isSumSf (h : 0 < lam) :
    IsSumSf Set.univ Set.univ (fun k => pmf k (fin lam)) (fun k => sf k (fin lam)) := by
  refine ⟨_, mass_univ (pmf_eval h), ?_⟩
  refine forall_int (fun k _ => ⟨_, ?_, hasSum_gt (hasSum_extZ (P_sum lam)) (sum_upto lam k)⟩)
    (fun k hk _ => ⟨1, by simp [sf, validate_ok h, hk], ?_⟩)
  · have hk : (0:ℝ) < k + 1 := by positivity
    have hneg : ¬ (k:ℤ) < 0 := by omega
    simp only [sf, validate_ok h, ok_bind, hneg, if_false, ofInt_def, Int.cast_add,
      Int.cast_natCast, Int.cast_one, mp.gammaincLowerReg, hk, h.le, and_self, if_true,
      sum_le k h.le, sub_sub_cancel]
  · have := hasSum_gt (hasSum_extZ (P_sum lam)) (hasSum_le_neg (fun j hj => extZ_neg _ hj) hk)
    rwa [sub_zero] at this

/-- C35 `logpmf` is the logarithm of `pmf`, `-inf` outside the support. -/
theorem isLogPmf (h : 0 < lam) :
    IsLogPmf Set.univ (fun k => pmf k (fin lam)) (fun k => logpmf k (fin lam)) := by
  intro k hk
  clear hk
  refine ⟨_, ?_, pmf_eval h k, ?_⟩
  · revert k
    exact forall_int (fun k => by rw [extZ_nat]; exact (P_pos h k).le)
      (fun k hk => by rw [extZ_neg _ hk])
  · revert k
    refine forall_int (fun k => ?_) (fun k hk => ?_)
    · have hf : (k.factorial : ℝ) ≠ 0 := by exact_mod_cast k.factorial_ne_zero
      have hk : (0:ℝ) < k + 1 := by positivity
      have hneg : ¬ (k:ℤ) < 0 := by omega
      rw [extZ_nat, if_neg (P_pos h k).ne']
      simp only [logpmf, validate_ok h, ok_bind, hneg, if_false, mp.log_pos h, ofInt_def,
        Int.cast_add, Int.cast_natCast, Int.cast_one, mp.loggamma_pos hk,
        Real.Gamma_nat_eq_factorial, fin_mul, fin_sub, pure_eq_ok]
      rw [P, Real.log_div (by positivity) hf, Real.log_mul (by positivity) (by positivity),
        Real.log_pow, Real.log_exp]
      simp [sub_eq_add_neg]
    · simp [logpmf, validate_ok h, hk, extZ_neg]

/-- C37 `mean` is the expected value. -/
theorem isMean (h : 0 < lam) : IsDMean Set.univ (fun k => pmf k (fin lam)) (mean (fin lam)) :=
  ⟨_, lam, mass_univ (pmf_eval h), validate_ok h,
    hasSum_int (P_mean lam) (fun k hk => by rw [extZ_neg _ hk, mul_zero]) fun k => by simp⟩

/-- C37 `var` is the variance. -/
theorem isVar (h : 0 < lam) :
    IsDVar Set.univ (fun k => pmf k (fin lam)) (mean (fin lam)) (var (fin lam)) := by
  have hm : HasSum (fun k : ℤ => (k:ℝ) * extZ (P lam) k) lam :=
    hasSum_int (P_mean lam) (fun k hk => by rw [extZ_neg _ hk, mul_zero]) fun k => by simp
  have h2 : HasSum (fun k : ℤ => (k:ℝ) * ((k:ℝ) - 1) * extZ (P lam) k) (lam ^ 2) :=
    hasSum_int (P_mean2 lam) (fun k hk => by rw [extZ_neg _ hk, mul_zero]) fun k => by simp
  refine ⟨_, lam, lam, mass_univ (pmf_eval h), validate_ok h, validate_ok h, hm, ?_⟩
  exact hasSum_of (hasSum_var (hasSum_extZ (P_sum lam)) hm h2) (fun _ => rfl) (by ring)

/-- C36 `mode` is the smallest most probable value. -/
theorem isMode (h : 0 < lam) : IsDMode Set.univ (fun k => pmf k (fin lam)) (mode (fin lam)) := by
  have c1 : 0 < ⌈lam⌉ := Int.ceil_pos.2 h
  obtain ⟨m, hm⟩ := Int.eq_ofNat_of_zero_le (show 0 ≤ ⌈lam⌉ - 1 by omega)
  have hmc : (⌈lam⌉:ℝ) = m + 1 := by
    have : ⌈lam⌉ = m + 1 := by omega
    rw [this]; push_cast; rfl
  have c3 := Int.le_ceil lam
  have c4 := Int.ceil_lt_add_one lam
  rw [hmc] at c3 c4
  have up : ∀ k < m, P lam k < P lam (k + 1) := by
    intro k hk
    have hkm : (k:ℝ) + 1 ≤ m := by exact_mod_cast hk
    have r := P_succ lam k
    have hp := P_pos h k
    by_contra hcon
    push Not at hcon
    nlinarith [mul_le_mul_of_nonneg_left hcon (show (0:ℝ) ≤ k + 1 by positivity)]
  have down : ∀ k ≥ m, P lam (k + 1) ≤ P lam k := by
    intro k hk
    have hkm : (m:ℝ) ≤ k := by exact_mod_cast hk
    have r := P_succ lam k
    have hp := P_pos h k
    by_contra hcon
    push Not at hcon
    nlinarith [mul_lt_mul_of_pos_left hcon (show (0:ℝ) < k + 1 by positivity)]
  refine ⟨_, m, mass_univ (pmf_eval h), ?_, Set.mem_univ _,
    fun j => (unimodal up down (P_pos h m) j).1, fun j => (unimodal up down (P_pos h m) j).2⟩
  simp only [mode, validate_ok h, ok_bind, mp.ceil_fin, py.int_cast, pure_eq_ok, hm]

/-- Non-vacuity. -/
example : pmf 2 (fin 3) = .ok (fin (9 / 2 * Real.exp (-3))) := by
  have := pmf_eval (lam := 3) (by norm_num) (2:ℕ)
  rw [extZ_nat] at this
  refine this.trans ?_
  simp [P, Nat.factorial]; ring

end Mpsci.poisson
