import Verif.Lemmas.Disc.GaussKuzmin

/-! Properties of the Gauss-Kuzmin distribution. -/

namespace Mpsci.gauss_kuzmin

open Classical Num Spec common

theorem log2 : mp.log 2 = .ok (fin (Real.log 2)) := mp.log_pos two_pos

theorem sf_eval {x : ℝ} (hx : 0 ≤ x) : sf (fin x) = .ok (fin (s x)) := by
  have h1 : x + 1 ≠ 0 := by linarith
  have h2 : (0:ℝ) < 1 / (x + 1) := by positivity
  simp only [sf, zero_def, fin_lt, hx.not_gt, if_false, one_def, fin_add, fin_div _ h1, ok_bind, mp.log1p_pos (show -1 < 1 / (x + 1) by linarith),
    log2, fin_div _ log2_pos.ne', s]

theorem cdf_eval {x : ℝ} (hx : 0 ≤ x) : cdf (fin x) = .ok (fin (1 - s x)) := by
  have h1 : x + 1 ≠ 0 := by linarith
  have h2 : (0:ℝ) < 1 / (x + 1) := by positivity
  have h3 : ¬ (fin x = pinf ∨ fin x = ninf) := by simp
  simp only [cdf, zero_def, fin_lt, hx.not_gt, if_false, h3, one_def, fin_add, fin_div _ h1, ok_bind, mp.log1p_pos (show -1 < 1 / (x + 1) by linarith),
    log2, fin_div _ log2_pos.ne', s, fin_sub, pure_eq_ok]

theorem pmf_eval (k : ℤ) : pmf (ofInt k) = .ok (fin (extZ K k)) := by
  revert k
  refine forall_int (fun k => ?_) (fun k hk => ?_)
  · rw [extZ_nat]
    cases k with
    | zero => simp [pmf, K]
    | succ k =>
      have h1 : ¬ ((k:ℝ) + 1 < 1) := by have := Nat.cast_nonneg (α := ℝ) k; linarith
      have h2 : (k:ℝ) + 1 + 1 ≠ 0 := by positivity
      have h3 : (1:ℝ) / ((k:ℝ) + 1 + 1) < 1 := by rw [div_lt_one (by positivity)]; have := Nat.cast_nonneg (α := ℝ) k; linarith
      have h4 : (0:ℝ) < 1 / ((k:ℝ) + 1 + 1) := by positivity
      simp only [pmf, ofInt_def, Int.cast_natCast, Nat.cast_succ, Int.cast_add, Int.cast_one, one_def, fin_lt, h1, if_false, fin_add, fin_div _ h2, ok_bind, neg_fin,
        mp.log1p_pos (show -1 < -(1 / ((k:ℝ) + 1 + 1)) by linarith), mp.log1p_pos (show -1 < 1 / ((k:ℝ) + 1 + 1) by linarith), log2,
        fin_div _ log2_pos.ne', K_eq]
      rw [← Real.log_mul (by linarith) (by linarith)]
      congr 5
      rw [show (k:ℝ) + 1 + 1 = k + 2 by ring]
      ring
  · have : (k:ℝ) < 1 := by exact_mod_cast (by omega : k < 1)
    simp [pmf, this, extZ_neg _ hk]

/-- C33 `pmf` is a probability mass function on the positive integers. -/
theorem isPmf : IsPmf Set.univ (Set.Ici 1) fun k => pmf (ofInt k) := by
  refine ⟨Set.subset_univ _, _, mass_univ pmf_eval, ?_, ?_, hasSum_extZ K_sum⟩
  · exact forall_int (fun k => by rw [extZ_nat]; exact K_nonneg k) (fun k hk => by rw [extZ_neg _ hk])
  · refine forall_int (fun k hk => ?_) (fun k hk _ => extZ_neg _ hk)
    have : k = 0 := by simpa using hk
    rw [this, extZ_nat]; rfl

theorem sum_upto (k : ℕ) : HasSum (fun j : ℤ => if j ≤ (k:ℤ) then extZ K j else 0) (1 - s k) := by
  have := hasSum_le (f := extZ K) (fun j hj => extZ_neg _ hj) k
  simpa [K_upto] using this

/-- C34 `cdf(k)` is the sum of the probabilities of `1, ..., k`, for every integer `k`. -/
theorem isSumCdf : IsSumCdf Set.univ Set.univ (fun k => pmf (ofInt k)) (fun k => cdf (ofInt k)) := by
  refine ⟨_, mass_univ pmf_eval, ?_⟩
  refine forall_int (fun k _ => ⟨_, ?_, sum_upto k⟩) (fun k hk _ => ⟨0, ?_, hasSum_le_neg (fun j hj => extZ_neg _ hj) hk⟩)
  · have := cdf_eval (Nat.cast_nonneg (α := ℝ) k)
    simpa using this
  · have : (k:ℝ) < 0 := by exact_mod_cast hk
    simp [cdf, this]

/-- C34 `sf(k)` is the sum of the probabilities of `k+1, k+2, ...`, for every integer `k`. -/
theorem isSumSf : IsSumSf Set.univ Set.univ (fun k => pmf (ofInt k)) (fun k => sf (ofInt k)) := by
  refine ⟨_, mass_univ pmf_eval, ?_⟩
  have hT := hasSum_extZ K_sum
  refine forall_int (fun k _ => ⟨s k, ?_, ?_⟩) (fun k hk _ => ⟨1, ?_, ?_⟩)
  · have := sf_eval (Nat.cast_nonneg (α := ℝ) k)
    simpa using this
  · have := hasSum_gt hT (sum_upto k)
    rwa [sub_sub_cancel] at this
  · have : (k:ℝ) < 0 := by exact_mod_cast hk
    simp [sf, this]
  · have := hasSum_gt hT (hasSum_le_neg (fun j hj => extZ_neg _ hj) hk)
    rwa [sub_zero] at this

/-- C35 `logpmf` is the logarithm of `pmf`, `-inf` where that is zero. -/
theorem isLogPmf : IsLogPmf Set.univ (fun k => pmf (ofInt k)) (fun k => logpmf (ofInt k)) := by
  intro k _
  have h0 : 0 ≤ extZ K k := forall_int (P := fun k => 0 ≤ extZ K k) (fun k => by rw [extZ_nat]; exact K_nonneg k)
    (fun k hk => by rw [extZ_neg _ hk]) k
  refine ⟨_, h0, pmf_eval k, ?_⟩
  by_cases hk : k < 0
  · have : (k:ℝ) < 0 := by exact_mod_cast hk
    simp [logpmf, this, extZ_neg _ hk]
  · have : ¬ (k:ℝ) < 0 := by exact_mod_cast hk
    have e := pmf_eval k
    rw [ofInt_def] at e
    simp only [logpmf, ofInt_def, zero_def, fin_lt, this, if_false, e, ok_bind]
    split_ifs with h
    · rw [h, mp.log_zero]
    · rw [mp.log_pos (lt_of_le_of_ne h0 (Ne.symm h))]

/-- C36 `mode` is the most probable value. -/
theorem isMode : IsDMode Set.univ (fun k => pmf (ofInt k)) mode := by
  have down : ∀ k ≥ 1, K (k + 1) ≤ K k := fun k hk => by
    obtain ⟨j, rfl⟩ : ∃ j, k = j + 1 := ⟨k - 1, by omega⟩
    exact K_anti j
  have up : ∀ k < 1, K k < K (k + 1) := fun k hk => by
    obtain rfl : k = 0 := by omega
    exact K_pos 0
  have key := fun j => unimodal up down (K_pos 0) j
  exact ⟨_, ((1:ℕ):ℤ), mass_univ pmf_eval, rfl, Set.mem_univ _, fun j => (key j).1, fun j => (key j).2⟩

/-- C37 the expected value is infinite. -/
theorem isMeanInf : IsDMeanInf Set.univ (fun k => pmf (ofInt k)) mean := by
  refine ⟨_, mass_univ pmf_eval, ?_, not_summable_ext (φ := id) not_summable_mean, rfl⟩
  exact forall_int (fun k => by rw [extZ_nat]; exact mul_nonneg (by simp) (K_nonneg k)) (fun k hk => by rw [extZ_neg _ hk, mul_zero])

/-- C37 the second moment is infinite. -/
theorem isVarInf : IsDVarInf Set.univ (fun k => pmf (ofInt k)) var := by
  refine ⟨_, mass_univ pmf_eval, ?_, not_summable_ext (φ := fun x => x ^ 2) not_summable_var, rfl⟩
  exact forall_int (fun k => by rw [extZ_nat]; exact K_nonneg k) (fun k hk => by rw [extZ_neg _ hk])

/-- C10 `median` is the smallest integer where `cdf` is at least 1/2. -/
theorem isMedian : IsDMedian (fun k => cdf (ofInt k)) median := by
  have h2 := log2_pos
  refine ⟨2, 1 - s 2, 1 - s 1, ?_, ?_, ?_, ?_, ?_⟩
  · simp [median]
  · have := cdf_eval (x := 2) (by norm_num)
    simpa using this
  · have h3 : 2 * Real.log (4 / 3) ≤ Real.log 2 := by
      rw [← Real.log_rpow (by norm_num)]
      exact Real.log_le_log (by positivity) (by norm_num)
    have : s 2 ≤ 1 / 2 := by
      rw [s, div_le_iff₀ h2, show (1:ℝ) + 1 / (2 + 1) = 4 / 3 by norm_num]; linarith
    linarith
  · have := cdf_eval (x := 1) (by norm_num)
    simpa using this
  · have h3 : Real.log 2 < 2 * Real.log (3 / 2) := by
      rw [← Real.log_rpow (by norm_num)]
      exact Real.log_lt_log (by positivity) (by norm_num)
    have : 1 / 2 < s 1 := by
      rw [s, lt_div_iff₀ h2, show (1:ℝ) + 1 / (1 + 1) = 3 / 2 by norm_num]; linarith
    linarith

theorem two_rpow_gt {y : ℝ} (hy : 0 < y) : 0 < (2:ℝ) ^ y - 1 := by
  have := Real.one_lt_rpow one_lt_two hy
  linarith

theorem s_inv {y : ℝ} (hy : 0 < y) : s ((2 ^ y - 1) ^ (-1:ℝ) - 1) = y := by
  have h := two_rpow_gt hy
  rw [s, Real.rpow_neg_one, sub_add_cancel, one_div, inv_inv, add_sub_cancel, Real.log_rpow two_pos, mul_div_assoc, div_self log2_pos.ne', mul_one]

theorem inv_s {x : ℝ} (hx : 0 ≤ x) : (2 ^ s x - 1) ^ (-1:ℝ) - 1 = x := by
  have h : (0:ℝ) < 1 + 1 / (x + 1) := by positivity
  have e : (2:ℝ) ^ s x = 1 + 1 / (x + 1) := by
    rw [Real.rpow_def_of_pos two_pos, s, mul_div_cancel₀ _ log2_pos.ne', Real.exp_log h]
  rw [e, Real.rpow_neg_one, add_sub_cancel_left, one_div, inv_inv, add_sub_cancel_right]

theorem invsf_eval {p : ℝ} (h0 : 0 < p) (h1 : p ≤ 1) : invsf (fin p) = .ok (fin ((2 ^ p - 1) ^ (-1:ℝ) - 1)) := by
  simp only [invsf, validateP_ok h0.le h1, ok_bind, zero_def, fin_eq, h0.ne', if_false, ofNat_def, mp.powm1_pos two_pos, one_def, neg_fin,
    mp.powm1_pos (two_rpow_gt h0)]

theorem invcdf_eval {p : ℝ} (h0 : 0 ≤ p) (h1 : p < 1) : invcdf (fin p) = .ok (fin ((2 ^ (1 - p) - 1) ^ (-1:ℝ) - 1)) := by
  simp only [invcdf, validateP_ok h0 h1.le, ok_bind, one_def, fin_eq, h1.ne, if_false, ofNat_def, fin_sub, mp.powm1_pos two_pos, neg_fin,
    mp.powm1_pos (two_rpow_gt (sub_pos.2 h1))]

theorem Q_nonneg {y : ℝ} (hy : 0 < y) (h1 : y ≤ 1) : (0:ℝ) ≤ (2 ^ y - 1) ^ (-1:ℝ) - 1 := by
  have h := two_rpow_gt hy
  have h2 : (2:ℝ) ^ y ≤ 2 := by
    calc (2:ℝ) ^ y ≤ 2 ^ (1:ℝ) := Real.rpow_le_rpow_of_exponent_le one_le_two h1
      _ = 2 := Real.rpow_one 2
  rw [Real.rpow_neg_one, sub_nonneg]
  exact (one_le_inv₀ h).2 (by linarith)

/-- C05 `invcdf` and `invsf` invert `cdf` and `sf`, which are also defined between the integers. -/
theorem inverts {p : ℝ} (h0 : 0 < p) (h1 : p < 1) : (∃ x, invcdf (fin p) = .ok (fin x) ∧ cdf (fin x) = .ok (fin p)) ∧
    ∃ x, invsf (fin p) = .ok (fin x) ∧ sf (fin x) = .ok (fin p) := by
  refine ⟨⟨_, invcdf_eval h0.le h1, ?_⟩, _, invsf_eval h0 h1.le, ?_⟩
  · rw [cdf_eval (Q_nonneg (by linarith) (by linarith)), s_inv (by linarith), sub_sub_cancel]
  · rw [sf_eval (Q_nonneg h0 h1.le), s_inv h0]

/-- C05 -/
theorem inverts' {x : ℝ} (hx : 0 ≤ x) : (cdf (fin x) >>= invcdf) = .ok (fin x) ∧ (sf (fin x) >>= invsf) = .ok (fin x) := by
  have h1 := s_pos hx
  have h2 : s x ≤ 1 := by
    rcases hx.eq_or_lt with rfl | h
    · rw [s_zero]
    · rw [← s_zero]; exact (s_anti le_rfl h).le
  refine ⟨?_, ?_⟩
  · rw [cdf_eval hx, ok_bind, invcdf_eval (by linarith) (by linarith), sub_sub_cancel, inv_s hx]
  · rw [sf_eval hx, ok_bind, invsf_eval h1 h2, inv_s hx]

/-- C06 -/
theorem inv_rejects {p : ℝ} (h : p < 0 ∨ 1 < p) : invcdf (fin p) = .error .valueError ∧ invsf (fin p) = .error .valueError := by
  simp only [invcdf, invsf, validateP_bad h]; exact ⟨rfl, rfl⟩

/-- C41: at `p = 1` the upper end; at `p = 0` `invcdf` returns 0, which is below the support. -/
theorem inv_ends : invcdf 1 = .ok pinf ∧ invsf 0 = .ok pinf ∧ invcdf 0 = .ok 0 ∧ invsf 1 = .ok 0 := by
  have v0 := validateP_ok (p := 0) le_rfl zero_le_one
  have v1 := validateP_ok (p := 1) zero_le_one le_rfl
  have e : ((2:ℝ) ^ (1:ℝ) - 1) ^ (-1:ℝ) - 1 = 0 := by norm_num
  refine ⟨?_, ?_, ?_, ?_⟩
  · simp [invcdf, v1]
  · simp [invsf, v0]
  · have := invcdf_eval le_rfl one_pos
    rw [sub_zero, e] at this; exact this
  · have := invsf_eval one_pos le_rfl
    rw [e] at this; exact this

/-- C10, C36: `invcdf(1/2)` is `√2`, not an integer, and so it is not the median. -/
theorem invcdf_half : invcdf (fin (1 / 2)) = .ok (fin (√2)) := by
  rw [invcdf_eval (by norm_num) (by norm_num), show (1:ℝ) - 1 / 2 = 1 / 2 by norm_num, ← Real.sqrt_eq_rpow, Real.rpow_neg_one]
  have h : (√2:ℝ) ^ 2 = 2 := Real.sq_sqrt (by norm_num)
  have h2 : (1:ℝ) < √2 := by
    rw [Real.lt_sqrt (by norm_num)]; norm_num
  have h3 : (√2:ℝ) - 1 ≠ 0 := by linarith
  congr 2
  rw [sub_eq_iff_eq_add]
  exact inv_eq_of_mul_eq_one_right (by nlinarith)

end Mpsci.gauss_kuzmin
