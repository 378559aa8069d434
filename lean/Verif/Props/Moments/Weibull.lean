import Verif.Lemmas.Int01More
import Verif.Lemmas.Shape
import Verif.Lemmas.Dist.Weibull
import Verif.Lemmas.Dist.WeibullMax
import Verif.Props.Dist.Genextreme

/-! Moments, shape statistics and entropy of `weibull_min` and `weibull_max`. -/

namespace Mpsci.weibull_min

open Classical Num Spec common Set weibull_common

variable {k loc s : ℝ}

/-- The Gamma value that gives the `n`th standard moment. -/
noncomputable def G (k : ℝ) (n : ℕ) : ℝ := Real.Gamma (1 + n / k)

noncomputable def Y (k p : ℝ) : ℝ := (-Real.log p) ^ (1 / k)

theorem int01_Y (hk : 0 < k) (n : ℕ) : Int01 (fun p => Y k p ^ n) (G k n) := by
  have h := int01_neg_log_rpow (s := n / k) (by have : (0:ℝ) ≤ n / k := by positivity
                                                linarith)
  rw [add_comm] at h
  refine h.congr fun p h0 h1 => ?_
  have : 0 < -Real.log p := neg_pos.2 (Real.log_neg h0 h1)
  rw [Y, ← Real.rpow_natCast, ← Real.rpow_mul this.le]; congr 1; ring

theorem int01_Y' (hk : 0 < k) (n : ℕ) : Int01 (fun p => Y k (1 - p) ^ n) (G k n) := (int01_Y hk n).reflect

theorem int01_Y1 (hk : 0 < k) : Int01 (Y k) (G k 1) := (int01_Y hk 1).congr fun p _ _ => (pow_one _).symm
theorem int01_Y1' (hk : 0 < k) : Int01 (fun p => Y k (1 - p)) (G k 1) := (int01_Y' hk 1).congr fun p _ _ => (pow_one _).symm

theorem F_aff (hk : 0 < k) (hs : 0 < s) (p : ℝ) (h0 : 0 < p) (h1 : p < 1) : F k loc s (loc + s * Y k (1 - p)) = p := by
  rw [add_comm]; exact (F_Q hk hs h0 h1).2

/-- The moments of `a + b Y`. -/
theorem int01_binom {a b : ℝ} {y : ℝ → ℝ} {g : ℕ → ℝ} (h : ∀ n, Int01 (fun p => y p ^ n) (g n)) (n : ℕ) :
    Int01 (fun p => (a + b * y p) ^ n) ((List.range (n + 1)).map fun i => (n.choose i : ℝ) * a ^ (n - i) * b ^ i * g i).sum := by
  have h1 := Int01.sum (Finset.range (n + 1)) (g := fun i p => (n.choose i : ℝ) * a ^ (n - i) * b ^ i * y p ^ i) fun i _ => (h i).mul _
  rw [← List.sum_toFinset _ List.nodup_range, List.toFinset_range]
  refine h1.congr fun p _ _ => ?_
  rw [add_comm a, add_pow]
  exact Finset.sum_congr rfl fun i _ => by ring

theorem gam (hk : 0 < k) (n : ℕ) : mp.gamma (fin (1 + n / k)) = .ok (fin (G k n)) := mp.gamma_pos (by positivity)
theorem gam1 (hk : 0 < k) : mp.gamma (fin (1 + 1 / k)) = .ok (fin (G k 1)) := by simpa using gam hk 1
theorem gam2 (hk : 0 < k) : mp.gamma (fin (1 + 2 / k)) = .ok (fin (G k 2)) := by simpa using gam hk 2
theorem gam3 (hk : 0 < k) : mp.gamma (fin (1 + 3 / k)) = .ok (fin (G k 3)) := by simpa using gam hk 3
theorem gam4 (hk : 0 < k) : mp.gamma (fin (1 + 4 / k)) = .ok (fin (G k 4)) := by simpa using gam hk 4

/-- The only point where the density may be infinite. -/
def Bot (k loc : ℝ) : Set ℝ := {x | x = loc ∧ k < 1}

theorem finite_Bot (k loc : ℝ) : (Bot k loc).Finite := (finite_singleton loc).subset fun _ h => h.1

theorem pdf_off (hk : 0 < k) (hs : 0 < s) : RealFnOff (Bot k loc) (pdf · (fin k) (fin loc) (fin s)) (f k loc s) :=
  fun x hx => pdf_eval hk hs fun h => not_lt.1 fun h' => hx ⟨h, h'⟩

/-- C37 -/
theorem isMean (hk : 0 < k) (hs : 0 < s) :
    IsMean (Bot k loc) (pdf · (fin k) (fin loc) (fin s)) (mean (fin k) (fin loc) (fin s)) :=
  (hasMV_of_affine (isDist hk hs) (F_aff hk hs) (int01_Y1' hk) (int01_Y' hk 2)).isMean (finite_Bot k loc) (pdf_off hk hs) (by
    simp only [mean, validate_ok _ hk hs, ok_bind, one_def, fin_div _ hk.ne', fin_add, gam1 hk, fin_mul, pure_eq_ok])

/-- C37 -/
theorem isVar (hk : 0 < k) (hs : 0 < s) :
    IsVar (Bot k loc) (pdf · (fin k) (fin loc) (fin s)) (var (fin k) (fin loc) (fin s)) :=
  (hasMV_of_affine (isDist hk hs) (F_aff hk hs) (int01_Y1' hk) (int01_Y' hk 2)).isVar (finite_Bot k loc) (pdf_off hk hs) (by
    simp only [var, validate_ok _ hk hs, ok_bind, one_def, ofNat_def, fin_div _ hk.ne', fin_add, gam1 hk, gam2 hk, fin_mul, fin_sub,
      mp.ipow_fin, pure_eq_ok])

/-- C37 -/
theorem isSkewness (hk : 0 < k) (hs : 0 < s) :
    IsSkewness (Bot k loc) (pdf · (fin k) (fin loc) (fin s)) (skewness (fin k) (fin loc) (fin s)) := by
  refine isSkewness_of (finite_Bot k loc) (pdf_off hk hs) (isDist hk hs) (isDist hk hs).f_nonneg
    (F_aff hk hs) (int01_Y1' hk) (int01_Y' hk 2) (int01_Y' hk 3) fun hv => ?_
  have hv : 0 < G k 2 - G k 1 ^ 2 := (mul_pos_iff_of_pos_left (by positivity)).1 hv
  have hp : (0:ℝ) < (G k 2 - G k 1 ^ 2) ^ (3 / 2 : ℝ) := by positivity
  simp only [skewness, validate_ok _ hk hs, ok_bind, one_def, ofNat_def, fin_div _ hk.ne', fin_add, gam1 hk, gam2 hk, gam3 hk, fin_mul,
    fin_sub, mp.ipow_fin, mp.power_pos hv, fin_div _ hp.ne']
  congr 2
  rw [genextreme.rpow_three_halves hv, abs_of_pos hs, mul_div_mul_left _ _ (pow_ne_zero 3 hs.ne')]
  ring

/-- C37: the excess kurtosis -/
theorem isKurtosis (hk : 0 < k) (hs : 0 < s) :
    IsKurtosis (Bot k loc) (pdf · (fin k) (fin loc) (fin s)) (kurtosis (fin k) (fin loc) (fin s)) := by
  refine isKurtosis_of (finite_Bot k loc) (pdf_off hk hs) (isDist hk hs) (isDist hk hs).f_nonneg
    (F_aff hk hs) (int01_Y1' hk) (int01_Y' hk 2) (int01_Y' hk 3) (int01_Y' hk 4) fun _ hv => ?_
  have hne := pow_ne_zero 2 hv.ne'
  simp only [kurtosis, validate_ok _ hk hs, ok_bind, one_def, ofNat_def, fin_div _ hk.ne', fin_add, gam1 hk, gam2 hk, gam3 hk, gam4 hk, fin_mul,
    fin_sub, mp.ipow_fin, neg_fin, fin_div _ hne]
  congr 2
  rw [div_sub' hne, div_left_inj' hne]; ring

/-- The differential entropy of the standard Weibull density. -/
theorem int01_log_f (hk : 0 < k) (hs : 0 < s) : Int01 (fun p => -Real.log (f k loc s (loc + s * Y k (1 - p))))
    (Real.eulerMascheroniConstant * (1 - 1 / k) + Real.log s - Real.log k + 1) := by
  have h1 := (int01_loglog 1).reflect
  rw [LG_one_one] at h1
  have h := ((Int01.const (Real.log s - Real.log k)).add (h1.mul (-(1 - 1 / k)))).sub int01_log1m
  rw [show Real.log s - Real.log k + -(1 - 1 / k) * -Real.eulerMascheroniConstant - -1 =
    Real.eulerMascheroniConstant * (1 - 1 / k) + Real.log s - Real.log k + 1 by ring] at h
  refine h.congr fun p h0 h1 => ?_
  have hl := neg_log_pos h0 h1
  have hY : 0 < Y k (1 - p) := Real.rpow_pos_of_pos hl _
  have e : (loc + s * Y k (1 - p) - loc) / s = Y k (1 - p) := by rw [add_sub_cancel_left, mul_div_cancel_left₀ _ hs.ne']
  have e2 : Y k (1 - p) ^ k = -Real.log (1 - p) := by
    rw [Y, ← Real.rpow_mul hl.le, one_div_mul_cancel hk.ne', Real.rpow_one]
  rw [f, if_neg (by have := mul_pos hs hY
                    linarith), e, e2, neg_neg, Real.exp_log (by linarith), Real.log_mul (by positivity) (by linarith),
    Real.log_mul (by positivity) (by positivity), Real.log_div hk.ne' hs.ne', Real.log_rpow hY, Y, Real.log_rpow hl]
  simp only [pow_one]
  field_simp
  ring

/-- C37 -/
theorem isEntropy (hk : 0 < k) (hs : 0 < s) :
    IsEntropy (Bot k loc) (pdf · (fin k) (fin loc) (fin s)) (entropy (fin k) (fin loc) (fin s)) :=
  (HasEnt.of_int01 (isDist hk hs) (F_aff hk hs) (int01_log_f hk hs)).isEntropy (finite_Bot k loc) (pdf_off hk hs) (by
    simp only [entropy, validate_ok _ hk hs, ok_bind, mp.euler_def, one_def, fin_div _ hk.ne', fin_add, fin_sub, fin_mul, mp.log_pos hs, mp.log_pos hk,
      pure_eq_ok])

theorem std_eval (hk : 0 < k) (i : ℕ) : standardNoncentralMoment i (fin k) = .ok (fin (G k i)) := by
  rw [standardNoncentralMoment]
  split_ifs with h
  · subst h; simp [G]
  · rw [fin_div _ hk.ne', ok_bind, one_def, fin_add, gam hk]

theorem moment_eval (hk : 0 < k) (hs : 0 < s) (n : ℕ) : noncentralMoment n (fin k) (fin loc) (fin s) =
    .ok (fin ((List.range (n + 1)).map fun i => (n.choose i : ℝ) * loc ^ (n - i) * s ^ i * G k i).sum) := by
  have hv : validateMomentN (n : ℤ) = .ok n := by simp [validateMomentN]
  simp only [noncentralMoment, hv, validate_ok _ hk hs, ok_bind]
  split_ifs with h0
  · subst h0; simp [G]
  · rw [mapM_ok (g := fun i : ℕ => fin ((n.choose i : ℝ) * loc ^ (n - i) * s ^ i * G k i)) _ fun i _ => by
      simp only [mp.binomial_nat, ok_bind, std_eval hk, mp.ipow_fin, fin_mul, pure_eq_ok]]
    rw [ok_bind, mp.fsum_map_fin, pure_eq_ok]

/-- C37, C50 -/
theorem isMoment (hk : 0 < k) (hs : 0 < s) (n : ℕ) :
    IsMoment (Bot k loc) (pdf · (fin k) (fin loc) (fin s)) n (noncentralMoment n (fin k) (fin loc) (fin s)) :=
  isMoment_of_int01 (finite_Bot k loc) (pdf_off hk hs) (isDist hk hs) (F_aff hk hs)
    (int01_binom (int01_Y' hk) n) (moment_eval hk hs n)

/-- C50 -/
theorem moment_rejects {n : ℤ} (hn : n < 0) : noncentralMoment n (fin k) (fin loc) (fin s) = .error .valueError := by
  simp [noncentralMoment, validateMomentN, hn]

/-- C50: a bad shape or scale is rejected -/
theorem moment_validates (h : k ≤ 0 ∨ s ≤ 0) (n : ℤ) : noncentralMoment n (fin k) (fin loc) (fin s) = .error .valueError := by
  by_cases hn : n < 0 <;> simp [noncentralMoment, validateMomentN, hn, validate_bad _ h]

/-- Non-vacuity: the exponential distribution has second moment 2. -/
example : noncentralMoment 2 (fin 1) (fin 0) (fin 1) = .ok (fin 2) := by
  have := moment_eval (loc := 0) (one_pos (α := ℝ)) one_pos 2
  rw [show ((2:ℕ):ℤ) = 2 from rfl] at this
  rw [this]
  have h3 : Real.Gamma 3 = 2 := by simpa using Real.Gamma_nat_eq_factorial 2
  simp [List.range_succ, G]
  norm_num [h3]

end Mpsci.weibull_min

namespace Mpsci.weibull_max

open Classical Num Spec common Set weibull_common weibull_min

variable {k loc s : ℝ}

theorem F_aff (hk : 0 < k) (hs : 0 < s) (p : ℝ) (h0 : 0 < p) (h1 : p < 1) :
    (fun x => 1 - weibull_min.F k (-loc) s (-x)) (loc + -s * Y k p) = p := by
  have := weibull_min.F_aff (loc := -loc) hk hs (1 - p) (by linarith) (by linarith)
  rw [sub_sub_cancel] at this
  simp only
  rw [show -(loc + -s * Y k p) = -loc + s * Y k p by ring, this]; ring

theorem pdf_off (hk : 0 < k) (hs : 0 < s) : RealFnOff (Bot k loc) (pdf · (fin k) (fin loc) (fin s)) (fun x => weibull_min.f k (-loc) s (-x)) :=
  fun x hx => (pdf_mirror x).trans (weibull_min.pdf_eval hk hs fun h => not_lt.1 fun h' => hx ⟨neg_inj.1 h, h'⟩)

/-- C37 -/
theorem isMean (hk : 0 < k) (hs : 0 < s) :
    IsMean (Bot k loc) (pdf · (fin k) (fin loc) (fin s)) (mean (fin k) (fin loc) (fin s)) :=
  (hasMV_of_affine (isDist hk hs) (F_aff hk hs) (int01_Y1 hk) (int01_Y hk 2)).isMean (finite_Bot k loc) (pdf_off hk hs) (by
    simp only [mean, validate_ok _ hk hs, ok_bind, one_def, fin_div _ hk.ne', fin_add, gam1 hk, fin_mul, pure_eq_ok, fin_sub]
    congr 2; ring)

/-- C37 -/
theorem isVar (hk : 0 < k) (hs : 0 < s) :
    IsVar (Bot k loc) (pdf · (fin k) (fin loc) (fin s)) (var (fin k) (fin loc) (fin s)) :=
  (hasMV_of_affine (isDist hk hs) (F_aff hk hs) (int01_Y1 hk) (int01_Y hk 2)).isVar (finite_Bot k loc) (pdf_off hk hs) (by
    simp only [var, validate_ok _ hk hs, ok_bind, one_def, ofNat_def, fin_div _ hk.ne', fin_add, gam1 hk, gam2 hk, fin_mul, fin_sub,
      mp.ipow_fin, pure_eq_ok, neg_sq])

/-- C37 -/
theorem isSkewness (hk : 0 < k) (hs : 0 < s) :
    IsSkewness (Bot k loc) (pdf · (fin k) (fin loc) (fin s)) (skewness (fin k) (fin loc) (fin s)) := by
  refine isSkewness_of (finite_Bot k loc) (pdf_off hk hs) (isDist hk hs) (isDist hk hs).f_nonneg
    (F_aff hk hs) (int01_Y1 hk) (int01_Y hk 2) (int01_Y hk 3) fun hv => ?_
  rw [neg_sq] at hv ⊢
  have hv : 0 < G k 2 - G k 1 ^ 2 := (mul_pos_iff_of_pos_left (by positivity)).1 hv
  have hp : (0:ℝ) < (G k 2 - G k 1 ^ 2) ^ (3 / 2 : ℝ) := by positivity
  simp only [skewness, validate_ok _ hk hs, ok_bind, one_def, ofNat_def, fin_div _ hk.ne', fin_add, gam1 hk, gam2 hk, gam3 hk, fin_mul,
    fin_sub, mp.ipow_fin, neg_fin, mp.power_pos hv, fin_div _ hp.ne']
  congr 2
  rw [genextreme.rpow_three_halves hv, abs_of_pos hs, show (-s) ^ 3 * (G k 3 - 3 * G k 2 * G k 1 + 2 * G k 1 ^ 3) =
    s ^ 3 * -(G k 3 - 3 * G k 1 * G k 2 + 2 * G k 1 ^ 3) by ring, mul_div_mul_left _ _ (pow_ne_zero 3 hs.ne')]

/-- C37: the excess kurtosis -/
theorem isKurtosis (hk : 0 < k) (hs : 0 < s) :
    IsKurtosis (Bot k loc) (pdf · (fin k) (fin loc) (fin s)) (kurtosis (fin k) (fin loc) (fin s)) := by
  refine isKurtosis_of (finite_Bot k loc) (pdf_off hk hs) (isDist hk hs) (isDist hk hs).f_nonneg
    (F_aff hk hs) (int01_Y1 hk) (int01_Y hk 2) (int01_Y hk 3) (int01_Y hk 4) fun _ hv => ?_
  have hne := pow_ne_zero 2 hv.ne'
  simp only [kurtosis, validate_ok _ hk hs, ok_bind, one_def, ofNat_def, fin_div _ hk.ne', fin_add, gam1 hk, gam2 hk, gam3 hk, gam4 hk, fin_mul,
    fin_sub, mp.ipow_fin, neg_fin, fin_div _ hne]
  congr 2
  rw [div_sub' hne, div_left_inj' hne]; ring

/-- C37 -/
theorem isEntropy (hk : 0 < k) (hs : 0 < s) :
    IsEntropy (Bot k loc) (pdf · (fin k) (fin loc) (fin s)) (entropy (fin k) (fin loc) (fin s)) := by
  have h := (weibull_min.int01_log_f (loc := -loc) hk hs).reflect
  refine (HasEnt.of_int01 (isDist hk hs) (F_aff hk hs) (h.congr fun p _ _ => ?_)).isEntropy (finite_Bot k loc) (pdf_off hk hs) ?_
  · rw [sub_sub_cancel, show -(loc + -s * Y k p) = -loc + s * Y k p by ring]
  · simp only [entropy, validate_ok _ hk hs, ok_bind, mp.euler_def, one_def, fin_div _ hk.ne', fin_add, fin_sub, fin_mul, mp.log_pos hs, mp.log_pos hk,
      pure_eq_ok]

theorem std_eval (hk : 0 < k) (i : ℕ) : standardNoncentralMoment i (fin k) = .ok (fin ((-1) ^ i * G k i)) := by
  rw [standardNoncentralMoment]
  split_ifs with h
  · subst h; simp [G]
  · rw [fin_div _ hk.ne', ok_bind, one_def, fin_add, gam hk, ok_bind, fin_mul, pure_eq_ok]
    congr 3
    rcases Nat.even_or_odd i with e | e
    · rw [Nat.even_iff.1 e, e.neg_one_pow, pow_zero]
    · rw [Nat.odd_iff.1 e, e.neg_one_pow, pow_one]

theorem moment_eval (hk : 0 < k) (hs : 0 < s) (n : ℕ) : noncentralMoment n (fin k) (fin loc) (fin s) =
    .ok (fin ((List.range (n + 1)).map fun i => (n.choose i : ℝ) * loc ^ (n - i) * (-s) ^ i * G k i).sum) := by
  have hv : validateMomentN (n : ℤ) = .ok n := by simp [validateMomentN]
  simp only [noncentralMoment, hv, validate_ok _ hk hs, ok_bind]
  split_ifs with h0
  · subst h0; simp [G]
  · rw [mapM_ok (g := fun i : ℕ => fin ((n.choose i : ℝ) * loc ^ (n - i) * (-s) ^ i * G k i)) _ fun i _ => by
      simp only [mp.binomial_nat, ok_bind, std_eval hk, mp.ipow_fin, fin_mul, pure_eq_ok]
      rw [neg_pow s]; congr 2; ring]
    rw [ok_bind, mp.fsum_map_fin, pure_eq_ok]

/-- C37, C50 -/
theorem isMoment (hk : 0 < k) (hs : 0 < s) (n : ℕ) :
    IsMoment (Bot k loc) (pdf · (fin k) (fin loc) (fin s)) n (noncentralMoment n (fin k) (fin loc) (fin s)) :=
  isMoment_of_int01 (finite_Bot k loc) (pdf_off hk hs) (isDist hk hs) (F_aff hk hs)
    (int01_binom (int01_Y hk) n) (moment_eval hk hs n)

/-- C50 -/
theorem moment_rejects {n : ℤ} (hn : n < 0) : noncentralMoment n (fin k) (fin loc) (fin s) = .error .valueError := by
  simp [noncentralMoment, validateMomentN, hn]

/-- C50: a bad shape or scale is rejected -/
theorem moment_validates (h : k ≤ 0 ∨ s ≤ 0) (n : ℤ) : noncentralMoment n (fin k) (fin loc) (fin s) = .error .valueError := by
  by_cases hn : n < 0 <;> simp [noncentralMoment, validateMomentN, hn, validate_bad _ h]

/-- Non-vacuity: the first moment of the mirrored exponential distribution is -1. -/
example : noncentralMoment 1 (fin 1) (fin 0) (fin 1) = .ok (fin (-1)) := by
  have := moment_eval (loc := 0) (one_pos (α := ℝ)) one_pos 1
  rw [show ((1:ℕ):ℤ) = 1 from rfl] at this
  rw [this]
  have h3 : Real.Gamma 2 = 1 := by simpa using Real.Gamma_nat_eq_factorial 1
  simp [List.range_succ, G]
  norm_num [h3]

end Mpsci.weibull_max
