import Verif.Lemmas.Disc.Binomial
import Verif.Props.Fun.Log

/-! Properties of the binomial distribution. -/

namespace Mpsci.binomial

open Classical Num Spec

/-- The integers `k` at which `pmf(k, n, p)` can be called: all of them, except that `p = 0` excludes
negative `k` and `p = 1` excludes `k > n` (see `pmf_raises`). -/
def Callable (n : ℕ) (p : ℝ) : Set ℤ := {k | (p = 0 → 0 ≤ k) ∧ (p = 1 → k ≤ n)}

variable {n : ℕ} {p : ℝ}

theorem mass (h0 : 0 ≤ p) (h1 : p ≤ 1) :
    Mass (Callable n p) (fun k => pmf k n (fin p)) (extZ (B n p)) := by
  constructor
  · refine forall_int ?_ ?_
    · intro k hk
      rw [extZ_nat]
      rcases le_or_gt k n with h | h
      · exact pmf_nat h h0 h1
      · rw [B_zero p h]
        exact pmf_big h h0 (lt_of_le_of_ne h1 fun e => by have := hk.2 e; omega)
    · intro k hk hD
      rw [extZ_neg _ hk]
      exact pmf_neg hk (lt_of_le_of_ne h0 fun e => by have := hD.1 e.symm; omega) h1
  · refine forall_int ?_ ?_
    · intro k hk
      rw [extZ_nat]
      refine B_zero p ?_
      by_contra hc
      exact hk ⟨fun _ => by omega, fun _ => by omega⟩
    · intro k hk _; exact extZ_neg _ hk

/-- C33 `pmf` is a probability mass function on `0, ..., n`. -/
theorem isPmf (h0 : 0 ≤ p) (h1 : p ≤ 1) :
    IsPmf (Callable n p) (Set.Icc 0 n) fun k => pmf k n (fin p) := by
  refine ⟨fun k hk => ⟨fun _ => hk.1, fun _ => hk.2⟩, _, mass h0 h1, ?_, ?_, hasSum_extZ (B_sum n p)⟩
  · refine forall_int (fun k => ?_) (fun k hk => ?_)
    · rw [extZ_nat]; exact B_nonneg h0 h1 k
    · rw [extZ_neg _ hk]
  · refine forall_int (fun k hk => ?_) (fun k hk _ => extZ_neg _ hk)
    rw [extZ_nat]
    refine B_zero p ?_
    by_contra hc
    exact hk ⟨by omega, by omega⟩

/-- Non-vacuity: for `0 < p < 1` every integer can be passed to `pmf`. -/
example : Callable 3 (1 / 4) = Set.univ := by
  ext k; simp [Callable]

/-- C33 ... but the mass of an impossible value is not always 0: for `p = 0` a negative `k`, and for
`p = 1` a `k` above `n`, raise ZeroDivisionError. -/
theorem pmf_raises (n : ℕ) : pmf (-1) n 0 = .error .zeroDivision ∧
    pmf (n + 1) n 1 = .error .zeroDivision := by
  constructor
  · rw [zero_def, pmf, validate_ok n le_rfl zero_le_one, ok_bind]
    simp [mp.binomial_neg n (show (-1:ℤ) < 0 by norm_num), mp.power_zero_neg_half (k := -2) (show (-1:ℝ) < 0 by norm_num) (by norm_num)]
  · have e : ((n:ℤ) + 1) = ((n + 1 : ℕ) : ℤ) := by push_cast; ring
    rw [one_def, pmf, validate_ok n zero_le_one le_rfl, ok_bind, e]
    simp only [mp.binomial_nat, ok_bind, ofInt_def, Int.cast_natCast, mp.power_nat zero_le_one,
      one_def, fin_sub, sub_self]
    rw [mp.power_zero_neg_half (k := -2) (by push_cast; linarith) (by push_cast; ring)]
    rfl

/-- C07, C33 invalid parameters are rejected by every function. -/
theorem rejects {n : ℤ} {p : ℝ} (h : n < 0 ∨ p < 0 ∨ 1 < p) (k : ℤ) :
    pmf k n (fin p) = .error .valueError ∧ logpmf k n (fin p) = .error .valueError ∧
    cdf k n (fin p) = .error .valueError ∧ sf k n (fin p) = .error .valueError ∧
    mean n (fin p) = .error .valueError ∧ var n (fin p) = .error .valueError ∧
    mode n (fin p) = .error .valueError ∧ support n (fin p) = .error .valueError := by
  simp [pmf, logpmf, cdf, sf, mean, var, mode, support, validate_bad h]

/-- C33 `support` lists `0, ..., n`. -/
theorem support_spec (h0 : 0 ≤ p) (h1 : p ≤ 1) : ∃ l, support n (fin p) = .ok l ∧ l.Nodup ∧
    ∀ k, k ∈ l ↔ 0 ≤ k ∧ k ≤ n := by
  refine ⟨py.range 0 (n + 1), by simp [support, validate_ok n h0 h1], py.nodup_range _ _, fun k => ?_⟩
  rw [py.mem_range]; omega

theorem sum_upto (p : ℝ) (k : ℕ) : HasSum (fun j : ℤ => if j ≤ (k:ℤ) then extZ (B n p) j else 0)
    (∑ j ∈ Finset.range (k + 1), B n p j) := by
  have := hasSum_le (f := extZ (B n p)) (fun j hj => extZ_neg _ hj) k
  simpa using this

/-- C34 `cdf(k)` (default method) is the sum of the probabilities of `0, ..., k`, for every
`0 <= k <= n`. -/
theorem isSumCdf (h0 : 0 ≤ p) (h1 : p ≤ 1) :
    IsSumCdf (Callable n p) (Set.Icc 0 n) (fun k => pmf k n (fin p)) (fun k => cdf k n (fin p)) := by
  refine ⟨_, mass h0 h1, ?_⟩
  refine forall_int ?_ (fun k hk h => absurd h.1 (by omega))
  rintro k ⟨-, hk⟩
  refine ⟨_, ?_, sum_upto p k⟩
  rcases (show k ≤ n by omega).eq_or_lt with rfl | h
  · have e : ∑ j ∈ Finset.range (k + 1), B k p j = 1 := by
      have a := B_finset k p fun _ => 1
      simp only [one_mul] at a
      exact a.unique (B_sum k p)
    simp [cdf, validate_ok k h0 h1, e]
  · have hk' : (k:ℝ) < n := by exact_mod_cast h
    have hne : ¬ (k:ℤ) = (n:ℤ) := by omega
    simp only [cdf, validate_ok n h0 h1, ok_bind, ofInt_def, Int.cast_sub, Int.cast_add,
      Int.cast_natCast, Int.cast_one, zero_def, one_def, fin_sub, hne, if_false]
    rw [mp.betaincReg_fin (by linarith) (by positivity) le_rfl zero_le_one (by linarith) (by linarith),
      tail_eq h]
    simp

/-- C34 `sf(k)` (default method) is the sum of the probabilities of `k+1, ..., n`, for every
`0 <= k < n`. -/
theorem isSumSf (h0 : 0 ≤ p) (h1 : p ≤ 1) :
    IsSumSf (Callable n p) (Set.Ico 0 n) (fun k => pmf k n (fin p)) (fun k => sf k n (fin p)) := by
  refine ⟨_, mass h0 h1, ?_⟩
  refine forall_int ?_ (fun k hk h => absurd h.1 (by omega))
  rintro k ⟨-, hk⟩
  have h : k < n := by omega
  have hk' : (k:ℝ) < n := by exact_mod_cast h
  refine ⟨_, ?_, hasSum_gt (hasSum_extZ (B_sum n p)) (sum_upto p k)⟩
  have ha : (0:ℝ) < n - k := by linarith
  have hb : (0:ℝ) < k + 1 := by positivity
  simp only [sf, validate_ok n h0 h1, ok_bind, ofInt_def, Int.cast_sub, Int.cast_add,
    Int.cast_natCast, Int.cast_one, zero_def, one_def, fin_sub]
  rw [mp.betaincReg_fin ha hb (by linarith) (by linarith) zero_le_one le_rfl, tail_eq h]
  have e := betaInt_add ha hb (x := 1 - p) (y := 1) (by linarith) (by linarith) zero_le_one le_rfl
  rw [betaInt_full ha hb] at e
  have e5 := (betaFn_pos ha hb).ne'
  rw [show betaInt (n - k) (k + 1) (1 - p) 1 = betaFn (n - k) (k + 1) - betaInt (n - k) (k + 1) 0 (1 - p)
    by linarith, sub_div, div_self e5]
  simp

theorem logpmf_mid {k : ℕ} (hk : k ≤ n) (h0 : 0 < p) (h1 : p < 1) :
    logpmf k n (fin p) = .ok (fin (Real.log (B n p k))) := by
  have h1' : (0:ℝ) < 1 - p := by linarith
  have hc : (0:ℝ) < n.choose k := by exact_mod_cast Nat.choose_pos hk
  have e : Real.log (B n p k) = Real.log (n.choose k) + k * Real.log p +
      (n - k) * Real.log (1 - p) := by
    rw [B, Real.log_mul (by positivity) (by positivity), Real.log_mul hc.ne' (by positivity),
      Real.log_pow, Real.log_pow, Nat.cast_sub hk]
  simp only [logpmf, validate_ok n h0.le h1.le, ok_bind, ofInt_def, Int.cast_natCast,
    fun_.logbinomial_eq hk, mp.log_pos h0, neg_fin, mp.log1p_pos (show -1 < -p by linarith),
    mp.fsum_cons, mp.fsum_nil, fin_add, fin_mul, pure_eq_ok, e]
  congr 2
  rw [← sub_eq_add_neg 1 p]; ring

/-- C35 on the support, `logpmf` is the logarithm of `pmf` (`0 < p < 1`). -/
theorem isLogPmf (h0 : 0 < p) (h1 : p < 1) :
    IsLogPmf (Set.Icc 0 n) (fun k => pmf k n (fin p)) (fun k => logpmf k n (fin p)) := by
  refine forall_int ?_ (fun k hk h => absurd h.1 (by omega))
  rintro k ⟨-, hk⟩
  have h : k ≤ n := by omega
  have h1' : (0:ℝ) < 1 - p := by linarith
  have hc : (0:ℝ) < n.choose k := by exact_mod_cast Nat.choose_pos h
  have hB : 0 < B n p k := by unfold B; positivity
  refine ⟨B n p k, hB.le, pmf_nat h h0.le h1.le, ?_⟩
  rw [if_neg hB.ne']
  exact logpmf_mid h h0 h1

/-- C35 ... but outside the support `logpmf` raises ValueError instead of returning `-inf`, although
`pmf` returns 0. -/
theorem logpmf_off_support (h0 : 0 < p) (h1 : p < 1) {k : ℤ} (hk : k < 0 ∨ n < k) :
    pmf k n (fin p) = .ok 0 ∧ logpmf k n (fin p) = .error .valueError := by
  constructor
  · have := (mass (n := n) h0.le h1.le).1 k ⟨fun e => absurd e h0.ne', fun e => absurd e h1.ne⟩
    refine this.trans ?_
    rw [zero_def]
    congr 2
    obtain ⟨-, f, hf, -, hz, -⟩ := isPmf (n := n) h0.le h1.le
    have h2 := hz k fun h => by rcases hk with h' | h' <;> [have := h.1; have := h.2] <;> omega
    have h3 := hf.1 k ⟨fun e => absurd e h0.ne', fun e => absurd e h1.ne⟩
    have h4 := this.symm.trans h3
    injection h4 with h4; injection h4 with h4
    rw [h4, h2]
  · have h2 : fun_.logbinomial (fin (n:ℝ)) (fin (k:ℝ)) = .error .valueError := by
      rw [fun_.logbinomial_raises]
      rcases hk with h | h
      · exact Or.inr (Or.inl (by exact_mod_cast h))
      · exact Or.inr (Or.inr (by exact_mod_cast h))
    simp [logpmf, validate_ok n h0.le h1.le, h2]

/-- C35 ... and at `p = 0`, `k = 0`, where `pmf` is 1, `logpmf` is nan (it computes `0 * log(0)`). -/
theorem logpmf_nan (n : ℕ) : pmf 0 n 0 = .ok 1 ∧ logpmf 0 n 0 = .ok nan := by
  constructor
  · have := pmf_nat (n := n) (k := 0) (p := 0) (by omega) le_rfl zero_le_one
    simpa [B] using this
  · have h := fun_.logbinomial_eq (n := n) (k := 0) (by omega)
    simp only [Nat.cast_zero] at h
    simp [logpmf, validate_ok n le_rfl zero_le_one, h, mp.log1p, mp.log_pos one_pos]

/-- C34 the other method, `method='sumpmf'`, also gives the sum of the probabilities of `0, ..., k`, for
`0 < p < 1`. -/
theorem isSumCdf_sumpmf (h0 : 0 < p) (h1 : p < 1) :
    IsSumCdf (Callable n p) (Set.Iic n) (fun k => pmf k n (fin p))
      (fun k => cdf k n (fin p) "sumpmf") := by
  refine ⟨_, mass h0.le h1.le, ?_⟩
  have key : ∀ k ≤ (n:ℤ), cdf k n (fin p) "sumpmf" =
      .ok (fin (∑ j ∈ Finset.Ico 0 (k + 1), extZ (B n p) j)) := by
    intro k hk
    have e : ((py.range 0 (k + 1)).mapM fun t => do return mp.exp (← logpmf t n (fin p))) =
        .ok ((py.range 0 (k + 1)).map fun t => fin (extZ (B n p) t)) := by
      refine py.mapM_fin _ fun t ht => ?_
      rw [py.mem_range] at ht
      obtain ⟨j, rfl⟩ := Int.eq_ofNat_of_zero_le ht.1
      have hj : j ≤ n := by omega
      have h1' : (0:ℝ) < 1 - p := by linarith
      have hc : (0:ℝ) < n.choose j := by exact_mod_cast Nat.choose_pos hj
      have hB : 0 < B n p j := by unfold B; positivity
      rw [logpmf_mid hj h0 h1, extZ_nat]
      simp [Real.exp_log hB]
    simp only [cdf, validate_ok n h0.le h1.le, ok_bind]
    rw [if_neg (by simp), if_neg (by simp)]
    show (do let l ← ((py.range 0 (k + 1)).mapM fun t => do return mp.exp (← logpmf t n (fin p)))
             return mp.fsum l) = _
    rw [e, ok_bind, mp.fsum_map_fin, py.sum_range, pure_eq_ok]
  intro k hk
  refine ⟨_, key k hk, ?_⟩
  revert k
  refine forall_int (fun k hk => ?_) (fun k hk _ => ?_)
  · have := sum_upto (n := n) p k
    convert this using 1
    have : (Finset.Ico (0:ℤ) (k + 1)) = (Finset.range (k + 1)).map Nat.castEmbedding := by
      ext j
      simp only [Finset.mem_Ico, Finset.mem_map, Finset.mem_range, Nat.castEmbedding_apply]
      constructor
      · rintro ⟨a, b⟩; exact ⟨j.toNat, by omega, by omega⟩
      · rintro ⟨i, a, rfl⟩; omega
    rw [this, Finset.sum_map]
    simp
  · have : Finset.Ico (0:ℤ) (k + 1) = ∅ := by simp; omega
    rw [this, Finset.sum_empty]
    exact hasSum_le_neg (fun j hj => extZ_neg _ hj) hk

/-- C34 the method must be one of the two names. -/
theorem cdf_method (k m : ℤ) (q : Num) {s : String} (h : s ≠ "sumpmf" ∧ s ≠ "incbeta") :
    cdf k m q s = .error .valueError ∧ sf k m q s = .error .valueError := by
  simp [cdf, sf, h]

/-- C37 `mean` is the expected value. -/
theorem isMean (h0 : 0 ≤ p) (h1 : p ≤ 1) :
    IsDMean (Callable n p) (fun k => pmf k n (fin p)) (mean n (fin p)) :=
  ⟨_, n * p, mass h0 h1, by simp [mean, validate_ok n h0 h1],
    hasSum_int (B_mean n p) (fun k hk => by rw [extZ_neg _ hk, mul_zero]) fun k => by simp⟩

/-- C37 `var` is the variance. -/
theorem isVar (h0 : 0 ≤ p) (h1 : p ≤ 1) :
    IsDVar (Callable n p) (fun k => pmf k n (fin p)) (mean n (fin p)) (var n (fin p)) := by
  have hm : HasSum (fun k : ℤ => (k:ℝ) * extZ (B n p) k) (n * p) :=
    hasSum_int (B_mean n p) (fun k hk => by rw [extZ_neg _ hk, mul_zero]) fun k => by simp
  have h2 : HasSum (fun k : ℤ => (k:ℝ) * ((k:ℝ) - 1) * extZ (B n p) k) (n * (n - 1) * p ^ 2) :=
    hasSum_int (B_mean2 n p) (fun k hk => by rw [extZ_neg _ hk, mul_zero]) fun k => by simp
  refine ⟨_, n * p, n * p * (1 - p), mass h0 h1, by simp [mean, validate_ok n h0 h1],
    by simp [var, validate_ok n h0 h1], hm, ?_⟩
  have := hasSum_var (hasSum_extZ (B_sum n p)) hm h2
  convert this using 1
  ring

/-- C36 `mode` is the smallest most probable value, for every `n` and `0 <= p <= 1`. -/
theorem isMode (h0 : 0 ≤ p) (h1 : p ≤ 1) :
    IsDMode (Callable n p) (fun k => pmf k n (fin p)) (mode n (fin p)) := by
  have main : ∀ m : ℕ, m ≤ n → mode n (fin p) = .ok (m:ℤ) → (∀ k < m, B n p k < B n p (k + 1)) →
      (∀ k ≥ m, B n p (k + 1) ≤ B n p k) → 0 < B n p m →
      IsDMode (Callable n p) (fun k => pmf k n (fin p)) (mode n (fin p)) := by
    intro m hm e up down pos
    exact ⟨_, m, mass h0 h1, e, ⟨fun _ => by omega, fun _ => by omega⟩,
      fun j => (unimodal up down pos j).1, fun j hj => (unimodal up down pos j).2 hj⟩
  rcases Nat.eq_zero_or_pos n with rfl | hn
  · refine main 0 le_rfl (by have := validate_ok 0 h0 h1; simp at this; simp [mode, this]) (by simp) ?_ (by simp [B])
    intro k _
    rw [B_zero p (by omega)]; exact B_nonneg h0 h1 k
  rcases h0.eq_or_lt with rfl | h0'
  · refine main 0 (by omega) (by simp [mode, validate_ok n h0 h1]) (by simp) ?_ (by simp [B])
    intro k _
    rw [show B n 0 (k + 1) = 0 by simp [B]]; exact B_nonneg h0 h1 k
  have hn' : (0:ℝ) < n := by exact_mod_cast hn
  rcases h1.eq_or_lt with rfl | h1'
  · have hz : ∀ k < n, B n 1 k = 0 := fun k hk => by simp [B, show n - k ≠ 0 by omega]
    have hne : ¬ (n:ℤ) = 0 := by omega
    have h1n : B n 1 n = 1 := by simp [B]
    refine ⟨_, n, mass h0 h1, ?_, ⟨fun _ => by omega, fun _ => le_rfl⟩, ?_, ?_⟩
    · simp only [mode, validate_ok n h0 h1, ok_bind, hne, zero_def, one_def, fin_eq, false_or,
        one_ne_zero, if_false, if_true]
      rfl
    · rw [extZ_nat, h1n]
      refine forall_int (fun j => ?_) (fun j hj => by rw [extZ_neg _ hj]; exact zero_le_one)
      rw [extZ_nat]
      rcases lt_trichotomy j n with h | h | h
      · rw [hz j h]; exact zero_le_one
      · rw [h, h1n]
      · rw [B_zero 1 h]; exact zero_le_one
    · rw [extZ_nat, h1n]
      refine forall_int (fun j hj => ?_) (fun j hj _ => by rw [extZ_neg _ hj]; exact zero_lt_one)
      rw [extZ_nat, hz j (by omega)]; exact zero_lt_one
  · have hq : 0 < 1 - p := by linarith
    set c := ⌈((n:ℝ) + 1) * p⌉ with hc
    have c1 : 1 ≤ c := by
      have : 0 < c := Int.ceil_pos.2 (by positivity)
      omega
    have c2 : c ≤ n + 1 := by
      rw [hc, Int.ceil_le]; push_cast; nlinarith
    have c3 : ((n:ℝ) + 1) * p ≤ c := Int.le_ceil _
    have c4 : (c:ℝ) < (n + 1) * p + 1 := Int.ceil_lt_add_one _
    obtain ⟨m, hm⟩ := Int.eq_ofNat_of_zero_le (show 0 ≤ c - 1 by omega)
    have hmc : (c:ℝ) = m + 1 := by
      have : c = m + 1 := by omega
      rw [this]; push_cast; rfl
    rw [hmc] at c3 c4
    have pos : ∀ k ≤ n, 0 < B n p k := by
      intro k hk
      have hch : (0:ℝ) < n.choose k := by exact_mod_cast Nat.choose_pos hk
      unfold B; positivity
    refine main m (by omega) ?_ ?_ ?_ (pos m (by omega))
    · have hne : ¬ (n:ℤ) = 0 := by omega
      simp only [mode, validate_ok n h0 h1, ok_bind, hne, zero_def, one_def, fin_eq, false_or,
        h0'.ne', h1'.ne, if_false, ofInt_def, Int.cast_natCast, fin_add, fin_mul, mp.ceil_fin, ← hc,
        fin_sub]
      have : (c:ℝ) - 1 = ((m : ℤ) : ℝ) := by rw [hmc]; push_cast; ring
      rw [this, py.int_cast]
    · intro k hk
      have hkm : (k:ℝ) + 1 ≤ m := by exact_mod_cast hk
      have r := B_ratio (show k < n by omega) p
      have h3 : ((k:ℝ) + 1) * (1 - p) < (n - k) * p := by nlinarith
      have hp := pos k (by omega)
      have h4 : 0 < ((k:ℝ) + 1) * (1 - p) := by positivity
      by_contra hcon
      push Not at hcon
      nlinarith [mul_le_mul_of_nonneg_left hcon h4.le]
    · intro k hk
      rcases lt_or_ge k n with h | h
      · have hkm : (m:ℝ) ≤ k := by exact_mod_cast hk
        have r := B_ratio h p
        have h3 : (n - k) * p ≤ ((k:ℝ) + 1) * (1 - p) := by nlinarith
        have hp := pos k h.le
        have h4 : 0 < ((k:ℝ) + 1) * (1 - p) := by positivity
        by_contra hcon
        push Not at hcon
        nlinarith [mul_lt_mul_of_pos_left hcon h4]
      · rw [B_zero p (by omega)]; exact B_nonneg h0 h1 k

/-- Non-vacuity: the mode of `binomial(3, 1/2)` is 1 (2 is equally probable). -/
example : mode (3:ℕ) (fin (1 / 2)) = .ok 1 := by
  simp only [mode, validate_ok 3 (show (0:ℝ) ≤ 1 / 2 by norm_num) (by norm_num), ok_bind]
  norm_num [-one_div]
  simp only [one_div, zero_def, one_def, fin_eq, fin_add, fin_mul, mp.ceil_fin, fin_sub]
  norm_num
  simpa using py.int_cast 1

end Mpsci.binomial
