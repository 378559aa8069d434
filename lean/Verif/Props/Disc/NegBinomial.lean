import Verif.Lemmas.Disc.NegBinomial

/-! Properties of the negative binomial distribution. -/

namespace Mpsci.negative_binomial

open Classical Num Spec

variable {r p : ℝ}

theorem validate_ok (hr : 0 < r) (h0 : 0 ≤ p) (h1 : p ≤ 1) : validateParams (fin r) (fin p) = .ok (fin r, fin p) := by
  simp [validateParams, hr, h0, h1]

theorem validate_bad (h : r ≤ 0 ∨ p < 0 ∨ 1 < p) : validateParams (fin r) (fin p) = .error .valueError := by
  by_cases hr : r ≤ 0
  · simp [validateParams, hr]
  · have h2 : ¬ (0 ≤ p ∧ p ≤ 1) := by rcases h.resolve_left hr with h | h <;> simp [h]
    simp only [validateParams, zero_def, one_def, fin_le, if_neg hr, h2, not_false_eq_true, if_true]
    rfl

/-- C33, C07 invalid parameters are rejected by every function. -/
theorem rejects (h : r ≤ 0 ∨ p < 0 ∨ 1 < p) (k : ℤ) :
    pmf k (fin r) (fin p) = .error .valueError ∧ logpmf k (fin r) (fin p) = .error .valueError ∧
    cdf k (fin r) (fin p) = .error .valueError ∧ sf k (fin r) (fin p) = .error .valueError ∧
    mean (fin r) (fin p) = .error .valueError ∧ var (fin r) (fin p) = .error .valueError ∧
    mode (fin r) (fin p) = .error .valueError := by
  simp [pmf, logpmf, cdf, sf, mean, var, mode, validate_bad h]

theorem logbinomial_eval (hr : 1 ≤ r) (k : ℕ) : fun_.logbinomial (ofInt k + fin r - 1) (ofInt k) =
    .ok (fin (Real.log (Real.Gamma (k + r)) - Real.log k.factorial - Real.log (Real.Gamma r))) := by
  have hk : (0:ℝ) ≤ k := Nat.cast_nonneg k
  have h1 : ¬ (k:ℝ) + r - 1 < 0 := by linarith
  have h2 : ¬ (k:ℝ) + r - 1 < k := by linarith
  simp only [fun_.logbinomial, ofInt_def, Int.cast_natCast, one_def, fin_add, fin_sub, zero_def, fin_lt, gt_iff, h1, h2, hk.not_gt, if_false,
    mp.fsum, List.foldr, neg_fin, mp.loggamma_pos (show 0 < (k:ℝ) + r - 1 + 1 by linarith), mp.loggamma_pos (show 0 < (k:ℝ) + 1 by linarith),
    mp.loggamma_pos (show 0 < (k:ℝ) + r - 1 + 1 + (-k + 0) by linarith), ok_bind, pure_eq_ok, Real.Gamma_nat_eq_factorial]
  rw [show (k:ℝ) + r - 1 + 1 = k + r by ring, show (k:ℝ) + r + (-k + 0) = r by ring]

/-- The value of `logpmf` on the support. -/
theorem logpmf_eval (hr : 1 ≤ r) (h0 : 0 ≤ p) (h1 : p < 1) (k : ℕ) : logpmf k (fin r) (fin p) =
    .ok (if N r p k = 0 then ninf else fin (Real.log (N r p k))) := by
  have hr0 : 0 < r := by linarith
  have h2 : 0 < 1 - p := by linarith
  have hneg : ¬ (k:ℤ) < 0 := by omega
  have hG := Real.Gamma_pos_of_pos hr0
  have hG2 := Real.Gamma_pos_of_pos (show 0 < (k:ℝ) + r by positivity)
  have hf : (0:ℝ) < k.factorial := by exact_mod_cast k.factorial_pos
  have e1 : fun_.xlog1py (fin r) (-fin p) = .ok (fin (r * Real.log (1 - p))) := by
    simp [fun_.xlog1py, hr0.ne', mp.log1p_pos (show -1 < -p by linarith), sub_eq_add_neg]
  simp only [logpmf, validate_ok hr0 h0 h1.le, ok_bind, hneg, if_false, logbinomial_eval hr k, e1, pure_eq_ok]
  rcases h0.eq_or_lt with rfl | h0
  · rcases Nat.eq_zero_or_pos k with rfl | hk
    · have e2 : fun_.xlogy (ofInt ((0:ℕ):ℤ)) (fin 0) = .ok (fin 0) := by simp [fun_.xlogy]
      simp only [e2, ok_bind, fin_add, N]
      simp [hG.ne']
    · have e2 : fun_.xlogy (ofInt (k:ℤ)) (fin 0) = .ok ninf := by
        have hk' : (0:ℝ) < k := by exact_mod_cast hk
        simp [fun_.xlogy, hk.ne', mp.log_zero, scaleInf_pos hk']
      simp only [e2, ok_bind, fin_add, N]
      simp [hk.ne']
  · have e2 : fun_.xlogy (ofInt (k:ℤ)) (fin p) = .ok (fin (k * Real.log p)) := by
      rcases Nat.eq_zero_or_pos k with rfl | hk
      · simp [fun_.xlogy]
      · simp [fun_.xlogy, hk.ne', mp.log_pos h0]
    simp only [e2, ok_bind, fin_add, if_neg (N_pos hr0 h0 h1 k).ne']
    rw [N, Real.log_mul (by positivity) (by positivity), Real.log_mul (by positivity) (by positivity), Real.log_div hG2.ne' (by positivity),
      Real.log_mul hf.ne' hG.ne', Real.log_pow, Real.log_rpow h2]
    congr 2; ring

theorem pmf_eval (hr : 1 ≤ r) (h0 : 0 ≤ p) (h1 : p < 1) (k : ℤ) : pmf k (fin r) (fin p) = .ok (fin (extZ (N r p) k)) := by
  have hr0 : 0 < r := by linarith
  revert k
  refine forall_int (fun k => ?_) (fun k hk => ?_)
  · rw [extZ_nat]
    simp only [pmf, logpmf_eval hr h0 h1 k, ok_bind, pure_eq_ok]
    split_ifs with h
    · rw [h]; rfl
    · rw [mp.exp_fin, Real.exp_log (lt_of_le_of_ne (N_nonneg hr0 h0 h1.le k) (Ne.symm h))]
  · simp [pmf, logpmf, validate_ok hr0 h0 h1.le, hk, extZ_neg]

/-- C33 `pmf` is a probability mass function on the nonnegative integers, for `r >= 1` and `p < 1`. -/
theorem isPmf (hr : 1 ≤ r) (h0 : 0 ≤ p) (h1 : p < 1) : IsPmf Set.univ (Set.Ici 0) fun k => pmf k (fin r) (fin p) := by
  have hr0 : 0 < r := by linarith
  refine ⟨Set.subset_univ _, _, mass_univ (pmf_eval hr h0 h1), ?_, ?_, hasSum_extZ (N_sum hr0 h0 h1)⟩
  · exact forall_int (fun k => by rw [extZ_nat]; exact N_nonneg hr0 h0 h1.le k) (fun k hk => by rw [extZ_neg _ hk])
  · intro k hk
    exact extZ_neg _ (by simpa using hk)

/-- C33, C35: with a positive `r` less than 1, which is accepted as valid, `pmf` and `logpmf` raise ValueError at every
point of the support. -/
theorem pmf_small_r (hr : 0 < r) (hr1 : r < 1) (h0 : 0 ≤ p) (h1 : p ≤ 1) (k : ℕ) :
    pmf k (fin r) (fin p) = .error .valueError ∧ logpmf k (fin r) (fin p) = .error .valueError := by
  have hneg : ¬ (k:ℤ) < 0 := by omega
  have e : fun_.logbinomial (ofInt k + fin r - 1) (ofInt k) = .error .valueError := by
    have h2 : (k:ℝ) + r - 1 < k := by linarith
    have hk : (0:ℝ) ≤ k := Nat.cast_nonneg k
    simp only [fun_.logbinomial, ofInt_def, Int.cast_natCast, one_def, fin_add, fin_sub, zero_def, fin_lt, gt_iff, h2, hk.not_gt, if_false, if_true]
    split_ifs <;> rfl
  have : logpmf k (fin r) (fin p) = .error .valueError := by
    simp only [logpmf, validate_ok hr h0 h1, ok_bind, hneg, if_false, e]; rfl
  exact ⟨by simp only [pmf, this]; rfl, this⟩

/-- C33, C34, C36, C37: with `p = 1`, which is accepted as valid, `pmf` is zero everywhere although `sf` is one everywhere on the
support; `mean` and `var` divide by zero, and so does `mode` if `r > 1`. -/
theorem p_one (hr : 1 ≤ r) (k : ℕ) : pmf k (fin r) (fin 1) = .ok 0 ∧ sf k (fin r) (fin 1) = .ok 1 ∧ mean (fin r) (fin 1) = .error .zeroDivision ∧
    var (fin r) (fin 1) = .error .zeroDivision ∧ (1 < r → mode (fin r) (fin 1) = .error .zeroDivision) := by
  have hr0 : 0 < r := by linarith
  have hneg : ¬ (k:ℤ) < 0 := by omega
  have hv := validate_ok hr0 zero_le_one le_rfl
  have hk : (0:ℝ) < k + 1 := by positivity
  have e1 : fun_.xlog1py (fin r) (-fin 1) = .ok ninf := by
    have : mp.log1p (fin (-1)) = .ok ninf := by simp [mp.log1p, mp.log_zero]
    simp [fun_.xlog1py, hr0.ne', this, scaleInf_pos hr0]
  have e2 : fun_.xlogy (ofInt (k:ℤ)) (fin 1) = .ok (fin 0) := by
    rcases Nat.eq_zero_or_pos k with rfl | hk
    · simp [fun_.xlogy]
    · simp [fun_.xlogy, hk.ne', mp.log_pos one_pos]
  refine ⟨?_, ?_, ?_, ?_, fun h => ?_⟩
  · simp only [pmf, logpmf, hv, ok_bind, hneg, if_false, logbinomial_eval hr k, e1, e2, pure_eq_ok]
    rfl
  · simp only [sf, hv, ok_bind, hneg, if_false, ofInt_def, Int.cast_natCast, one_def, zero_def, fin_add,
      mp.betaincReg_fin hk hr0 le_rfl zero_le_one zero_le_one le_rfl]
    rw [betaInt_full hk hr0, div_self (betaFn_pos hk hr0).ne']
  · simp [mean, hv]
  · simp [var, hv]
  · have : ¬ r ≤ 1 := not_le.2 h
    simp [mode, hv, this]

theorem sum_upto (r p : ℝ) (k : ℕ) : HasSum (fun j : ℤ => if j ≤ (k:ℤ) then extZ (N r p) j else 0)
    (∑ j ∈ Finset.range (k + 1), N r p j) := by
  have := hasSum_le (f := extZ (N r p)) (fun j hj => extZ_neg _ hj) k
  simpa using this

/-- C34 `cdf(k)` is the sum of the probabilities of `0, ..., k`, for every integer `k`. -/
theorem isSumCdf (hr : 1 ≤ r) (h0 : 0 ≤ p) (h1 : p < 1) :
    IsSumCdf Set.univ Set.univ (fun k => pmf k (fin r) (fin p)) (fun k => cdf k (fin r) (fin p)) := by
  have hr0 : 0 < r := by linarith
  refine ⟨_, mass_univ (pmf_eval hr h0 h1), ?_⟩
  refine forall_int (fun k _ => ⟨_, ?_, sum_upto r p k⟩) (fun k hk _ =>
    ⟨0, by simp [cdf, validate_ok hr0 h0 h1.le, hk], hasSum_le_neg (fun j hj => extZ_neg _ hj) hk⟩)
  have hk : (0:ℝ) < k + 1 := by positivity
  have hneg : ¬ (k:ℤ) < 0 := by omega
  simp only [cdf, validate_ok hr0 h0 h1.le, ok_bind, hneg, if_false, ofInt_def, Int.cast_natCast, one_def, fin_add,
    mp.betaincReg_fin hk hr0 h0 h1.le zero_le_one le_rfl]
  have e := (betaInt_add hk hr0 h0 h1.le zero_le_one le_rfl).trans (betaInt_full hk hr0)
  have e2 := upper_eq hr0 k h0 h1
  congr 2
  rw [show betaInt (k + 1) r p 1 = betaFn (k + 1) r - betaInt (k + 1) r 0 p by linarith, sub_div, div_self (betaFn_pos hk hr0).ne', ← e2]
  ring

/-- C34 `sf(k)` is the sum of the probabilities of `k+1, k+2, ...`, for every integer `k`. -/
theorem isSumSf (hr : 1 ≤ r) (h0 : 0 ≤ p) (h1 : p < 1) :
    IsSumSf Set.univ Set.univ (fun k => pmf k (fin r) (fin p)) (fun k => sf k (fin r) (fin p)) := by
  have hr0 : 0 < r := by linarith
  refine ⟨_, mass_univ (pmf_eval hr h0 h1), ?_⟩
  refine forall_int (fun k _ => ⟨_, ?_, hasSum_gt (hasSum_extZ (N_sum hr0 h0 h1)) (sum_upto r p k)⟩)
    (fun k hk _ => ⟨1, by simp [sf, validate_ok hr0 h0 h1.le, hk], ?_⟩)
  · have hk : (0:ℝ) < k + 1 := by positivity
    have hneg : ¬ (k:ℤ) < 0 := by omega
    simp only [sf, validate_ok hr0 h0 h1.le, ok_bind, hneg, if_false, ofInt_def, Int.cast_natCast, one_def, zero_def, fin_add,
      mp.betaincReg_fin hk hr0 le_rfl zero_le_one h0 h1.le, upper_eq hr0 k h0 h1]
  · have := hasSum_gt (hasSum_extZ (N_sum hr0 h0 h1)) (hasSum_le_neg (fun j hj => extZ_neg _ hj) hk)
    rwa [sub_zero] at this

/-- C35 `logpmf` is the logarithm of `pmf`, `-inf` where that is zero. -/
theorem isLogPmf (hr : 1 ≤ r) (h0 : 0 ≤ p) (h1 : p < 1) :
    IsLogPmf Set.univ (fun k => pmf k (fin r) (fin p)) (fun k => logpmf k (fin r) (fin p)) := by
  have hr0 : 0 < r := by linarith
  intro k hk
  clear hk
  refine ⟨_, ?_, pmf_eval hr h0 h1 k, ?_⟩
  · revert k
    exact forall_int (fun k => by rw [extZ_nat]; exact N_nonneg hr0 h0 h1.le k) (fun k hk => by rw [extZ_neg _ hk])
  · revert k
    refine forall_int (fun k => ?_) (fun k hk => ?_)
    · rw [extZ_nat]; exact logpmf_eval hr h0 h1 k
    · simp [logpmf, validate_ok hr0 h0 h1.le, hk, extZ_neg]

theorem mean_eval (hr : 0 < r) (h0 : 0 ≤ p) (h1 : p < 1) : mean (fin r) (fin p) = .ok (fin (r * p / (1 - p))) := by
  have h2 : 1 - p ≠ 0 := by linarith
  simp only [mean, validate_ok hr h0 h1.le, ok_bind, one_def, fin_sub, fin_mul, fin_div _ h2, mul_comm p r]

/-- C37 `mean` is the expected value. -/
theorem isMean (hr : 1 ≤ r) (h0 : 0 ≤ p) (h1 : p < 1) :
    IsDMean Set.univ (fun k => pmf k (fin r) (fin p)) (mean (fin r) (fin p)) :=
  ⟨_, _, mass_univ (pmf_eval hr h0 h1), mean_eval (by linarith) h0 h1,
    hasSum_int (N_mean (by linarith) h0 h1) (fun k hk => by rw [extZ_neg _ hk, mul_zero]) fun k => by simp⟩

/-- C37 `var` is the variance. -/
theorem isVar (hr : 1 ≤ r) (h0 : 0 ≤ p) (h1 : p < 1) :
    IsDVar Set.univ (fun k => pmf k (fin r) (fin p)) (mean (fin r) (fin p)) (var (fin r) (fin p)) := by
  have hr0 : 0 < r := by linarith
  have h2 : 1 - p ≠ 0 := by linarith
  have hm : HasSum (fun k : ℤ => (k:ℝ) * extZ (N r p) k) (r * p / (1 - p)) :=
    hasSum_int (N_mean hr0 h0 h1) (fun k hk => by rw [extZ_neg _ hk, mul_zero]) fun k => by simp
  have hs : HasSum (fun k : ℤ => (k:ℝ) * ((k:ℝ) - 1) * extZ (N r p) k) (r * (r + 1) * (p / (1 - p)) ^ 2) :=
    hasSum_int (N_mean2 hr0 h0 h1) (fun k hk => by rw [extZ_neg _ hk, mul_zero]) fun k => by simp
  refine ⟨_, _, p * r / (1 - p) ^ 2, mass_univ (pmf_eval hr h0 h1), mean_eval hr0 h0 h1, ?_, hm, ?_⟩
  · simp only [var, validate_ok hr0 h0 h1.le, ok_bind, one_def, fin_sub, fin_mul, mp.ipow_fin, fin_div _ (pow_ne_zero 2 h2)]
  · exact hasSum_of (hasSum_var (hasSum_extZ (N_sum hr0 h0 h1)) hm hs) (fun _ => rfl) (by field_simp; ring)

/-- C36 `mode` is the smallest most probable value, for `0 < p < 1` (or `r = 1`). -/
theorem isMode (hr : 1 ≤ r) (h0 : 0 ≤ p) (h1 : p < 1) (h : r = 1 ∨ 0 < p) :
    IsDMode Set.univ (fun k => pmf k (fin r) (fin p)) (mode (fin r) (fin p)) := by
  have hr0 : 0 < r := by linarith
  have h2 : 0 < 1 - p := by linarith
  have key : ∀ m : ℕ, (∀ k : ℕ, k < m → ((k:ℝ) + 1) < (k + r) * p) → (∀ k : ℕ, m ≤ k → (k + r) * p ≤ (k:ℝ) + 1) → 0 < N r p m →
      mode (fin r) (fin p) = .ok (m:ℤ) →
      IsDMode Set.univ (fun k => pmf k (fin r) (fin p)) (mode (fin r) (fin p)) := by
    intro m hlt hge hpos hmode
    have up : ∀ k < m, N r p k < N r p (k + 1) := by
      intro k hk
      have e := N_ratio (p := p) hr0 k
      have hp : 0 < p := by
        by_contra hp
        have := hlt k hk
        nlinarith [Nat.cast_nonneg (α := ℝ) k]
      have hpk := N_pos hr0 hp h1 k
      have := hlt k hk
      have hk1 : (0:ℝ) < k + 1 := by positivity
      by_contra hcon
      push Not at hcon
      nlinarith
    have down : ∀ k ≥ m, N r p (k + 1) ≤ N r p k := by
      intro k hk
      have e := N_ratio (p := p) hr0 k
      have hpk := N_nonneg hr0 h0 h1.le k
      have := hge k hk
      have hk1 : (0:ℝ) < k + 1 := by positivity
      by_contra hcon
      push Not at hcon
      nlinarith
    exact ⟨_, m, mass_univ (pmf_eval hr h0 h1), hmode, Set.mem_univ _,
      fun j => (unimodal up down hpos j).1, fun j => (unimodal up down hpos j).2⟩
  rcases hr.eq_or_lt with rfl | hr1
  · refine key 0 (fun k hk => absurd hk (Nat.not_lt_zero _)) (fun k _ => ?_) ?_ ?_
    · nlinarith [Nat.cast_nonneg (α := ℝ) k]
    · simpa [N] using h1
    · simp [mode, validate_ok one_pos h0 h1.le]
  · have hp : 0 < p := h.resolve_left hr1.ne'
    set x := (r - 1) * p / (1 - p) with hx
    have hxp : 0 < x := div_pos (mul_pos (by linarith) hp) h2
    have c1 : 0 < ⌈x⌉ := Int.ceil_pos.2 hxp
    obtain ⟨m, hm⟩ := Int.eq_ofNat_of_zero_le (show 0 ≤ ⌈x⌉ - 1 by omega)
    have hmc : (⌈x⌉:ℝ) = m + 1 := by
      have : ⌈x⌉ = m + 1 := by omega
      rw [this]; push_cast; rfl
    have c3 := Int.le_ceil x
    have c4 := Int.ceil_lt_add_one x
    rw [hmc] at c3 c4
    have hx2 : x * (1 - p) = (r - 1) * p := by rw [hx]; field_simp
    refine key m (fun k hk => ?_) (fun k hk => ?_) (N_pos hr0 hp h1 m) ?_
    · have hk' : (k:ℝ) + 1 ≤ m := by exact_mod_cast hk
      nlinarith
    · have hk' : (m:ℝ) ≤ k := by exact_mod_cast hk
      nlinarith
    · have : ¬ r ≤ 1 := not_le.2 hr1
      simp only [mode, validate_ok hr0 h0 h1.le, ok_bind, one_def, fin_le, this, if_false, fin_sub, fin_mul, fin_div _ h2.ne', ← hx,
        mp.ceil_fin, py.int_cast, pure_eq_ok, hm]

/-- C36: with `r > 1` and `p = 0` (all mass at 0) `mode` returns -1, which is outside the support. -/
theorem mode_p_zero (hr : 1 < r) : mode (fin r) (fin 0) = .ok (-1) ∧ pmf (-1) (fin r) (fin 0) = .ok 0 ∧ pmf 0 (fin r) (fin 0) = .ok 1 := by
  have hr0 : 0 < r := by linarith
  have hv := validate_ok hr0 le_rfl zero_le_one
  have : ¬ r ≤ 1 := not_le.2 hr
  have h1 : py.int (fin 0) = .ok 0 := by simpa using py.int_cast 0
  refine ⟨?_, ?_, ?_⟩
  · simp only [mode, hv, ok_bind, one_def, fin_le, this, if_false, fin_sub, fin_mul, mul_zero, sub_zero, fin_div _ one_ne_zero, zero_div,
      mp.ceil_fin, Int.ceil_zero, Int.cast_zero, h1, pure_eq_ok]
    rfl
  · rw [pmf_eval hr.le le_rfl one_pos, extZ_neg _ (by norm_num)]; rfl
  · have := pmf_eval hr.le le_rfl one_pos (0:ℕ)
    rw [extZ_nat] at this
    simpa [N, (Real.Gamma_pos_of_pos hr0).ne'] using this

/-- Non-vacuity. -/
example : pmf 1 (fin 2) (fin (1 / 2)) = .ok (fin (1 / 4)) ∧ mode (fin 3) (fin (1 / 2)) = .ok 1 ∧ mean (fin 3) (fin (1 / 2)) = .ok (fin 3) := by
  refine ⟨?_, ?_, ?_⟩
  · have := pmf_eval (r := 2) (p := 1 / 2) (by norm_num) (by norm_num) (by norm_num) (1:ℕ)
    rw [extZ_nat] at this
    refine this.trans ?_
    have e : Real.Gamma 3 = 2 := by
      have := Real.Gamma_nat_eq_factorial 2
      rw [show ((2:ℕ):ℝ) + 1 = 3 by norm_num] at this; simpa using this
    norm_num [N, e]
  · have h1 : py.int (fin (⌈(3 - 1) * (1 / 2) / (1 - 1 / 2 : ℝ)⌉ : ℤ)) = .ok ⌈(3 - 1) * (1 / 2) / (1 - 1 / 2 : ℝ)⌉ := py.int_cast _
    have h2 : (1:ℝ) - 1 / 2 ≠ 0 := by norm_num
    have h3 : ¬ (3:ℝ) ≤ 1 := by norm_num
    simp only [mode, validate_ok (show (0:ℝ) < 3 by norm_num) (show (0:ℝ) ≤ 1 / 2 by norm_num) (by norm_num), ok_bind, one_def, fin_le, h3,
      if_false, fin_sub, fin_mul, fin_div _ h2, mp.ceil_fin, h1, pure_eq_ok]
    norm_num
  · rw [mean_eval (by norm_num) (by norm_num) (by norm_num)]; norm_num

end Mpsci.negative_binomial
