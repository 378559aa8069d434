import Verif.Lemmas.Int01More
import Verif.Lemmas.Dist.Uniform
import Verif.Lemmas.Dist.Laplace
import Verif.Lemmas.Dist.Logistic
import Verif.Lemmas.Dist.HalfLogistic
import Verif.Lemmas.Dist.Pareto
import Verif.Props.Dist.Gumbel
import Mathlib.Algebra.Ring.GeomSum

/-! Means, variances, moments and entropies of `uniform`, `laplace`, `logistic`, `half_logistic`, `pareto`,
`gumbel_max` and `gumbel_min`. -/

namespace Mpsci.uniform

open Classical Num Spec common Set

variable {a b : ℝ}

theorem hasMV (h : a < b) : HasMV (f a b) ((a + b) / 2) ((b - a) ^ 2 / 12) := by
  have h1 := hasMV_of_affine (a := a) (b := b - a) (Y := fun p => p) (isDist h)
    (fun p h0 h1 => by rw [mul_comm]; exact (F_Q h h0 h1).2) ((int01_pow 1).congr fun p _ _ => (pow_one p).symm) (int01_pow 2)
  convert h1 using 1 <;> norm_num <;> ring

/-- C37 -/
theorem isMean (h : a < b) : IsMean ∅ (pdf · (fin a) (fin b)) (mean (fin a) (fin b)) :=
  (hasMV h).isMean finite_empty (fun x _ => pdf_eval h x) (by
    simp only [mean, validate_ok h, ok_bind, fin_add, ofNat_def, fin_div _ (two_ne_zero (α := ℝ))])

/-- C37 -/
theorem isVar (h : a < b) : IsVar ∅ (pdf · (fin a) (fin b)) (var (fin a) (fin b)) :=
  (hasMV h).isVar finite_empty (fun x _ => pdf_eval h x) (by
    simp only [var, validate_ok h, ok_bind, fin_sub, mp.ipow_fin, ofNat_def, fin_div _ (show (12:ℝ) ≠ 0 by norm_num)])

/-- C37 -/
theorem isEntropy (h : a < b) : IsEntropy ∅ (pdf · (fin a) (fin b)) (entropy (fin a) (fin b)) := by
  have hb : 0 < b - a := sub_pos.2 h
  refine HasEnt.isEntropy (HasEnt.of_int01 (isDist h) (fun p h0 h1 => (F_Q h h0 h1).2)
    ((Int01.const (Real.log (b - a))).congr fun p h0 h1 => ?_)) finite_empty (fun x _ => pdf_eval h x) ?_
  · have hq := (F_Q h h0 h1).1
    rw [f, if_neg (not_or.2 ⟨not_lt.2 hq.1.le, not_lt.2 hq.2.le⟩), one_div, Real.log_inv, neg_neg]
  · simp only [entropy, validate_ok h, ok_bind, fin_sub, mp.log_pos hb]

theorem int01_affine_pow (h : a < b) (n : ℕ) :
    Int01 (fun p => (a + p * (b - a)) ^ n) ((∑ i ∈ Finset.range (n + 1), a ^ i * b ^ (n - i)) / (n + 1)) := by
  have hb : b - a ≠ 0 := (sub_pos.2 h).ne'
  have hn : ((n:ℝ) + 1) ≠ 0 := by positivity
  have hc : Continuous fun p : ℝ => (a + p * (b - a)) ^ n := by fun_prop
  constructor
  · rw [← intervalIntegrable_iff_integrableOn_Ioo_of_le zero_le_one]
    exact hc.intervalIntegrable 0 1
  · rw [← MeasureTheory.integral_Ioc_eq_integral_Ioo, ← intervalIntegral.integral_of_le zero_le_one,
      intervalIntegral.integral_eq_sub_of_hasDerivAt (f := fun p => (a + p * (b - a)) ^ (n + 1) / ((n + 1) * (b - a)))
        (fun p _ => ?_) (hc.intervalIntegrable 0 1)]
    · have := geom_sum₂_mul a b (n + 1)
      rw [Finset.sum_congr rfl fun i _ => by rw [show n + 1 - 1 - i = n - i by omega]] at this
      generalize ∑ i ∈ Finset.range (n + 1), a ^ i * b ^ (n - i) = S at *
      rw [one_mul, zero_mul, add_zero, add_sub_cancel, ← sub_div, eq_div_iff hn, div_mul_eq_mul_div, div_eq_iff (mul_ne_zero hn hb)]
      linear_combination ((n + 1) : ℝ) * this
    · have h1 : HasDerivAt (fun p : ℝ => a + p * (b - a)) (b - a) p := by
        simpa using ((hasDerivAt_id p).mul_const (b - a)).const_add a
      refine ((h1.pow (n + 1)).div_const _).congr_deriv ?_
      push_cast
      field_simp

/-- C50 -/
theorem isMoment (h : a < b) (n : ℕ) : IsMoment ∅ (pdf · (fin a) (fin b)) n (noncentralMoment n (fin a) (fin b)) := by
  refine isMoment_of_int01 finite_empty (fun x _ => pdf_eval h x) (isDist h) (fun p h0 h1 => (F_Q h h0 h1).2) (int01_affine_pow h n) ?_
  have hv : validateMomentN (n : ℤ) = .ok n := by simp [validateMomentN]
  simp only [noncentralMoment, hv, validate_ok h, ok_bind]
  split_ifs with h0
  · subst h0; simp [one_def]
  · rw [show ((List.range (n + 1)).map fun i => mp.ipow (fin a) i * mp.ipow (fin b) (n - i)) =
      (List.range (n + 1)).map fun i => fin (a ^ i * b ^ (n - i)) by simp only [mp.ipow_fin, fin_mul], mp.fsum_map_fin,
      fin_div _ (by positivity)]
    congr 3

/-- C50 -/
theorem moment_rejects {n : ℤ} (hn : n < 0) : noncentralMoment n (fin a) (fin b) = .error .valueError := by
  simp [noncentralMoment, validateMomentN, hn]

/-- C37: bad parameters are rejected -/
theorem moments_reject (h : b ≤ a) (n : ℕ) : mean (fin a) (fin b) = .error .valueError ∧ var (fin a) (fin b) = .error .valueError ∧
    entropy (fin a) (fin b) = .error .valueError ∧ noncentralMoment n (fin a) (fin b) = .error .valueError := by
  have hv : validateMomentN (n : ℤ) = .ok n := by simp [validateMomentN]
  refine ⟨?_, ?_, ?_, ?_⟩ <;> simp [mean, var, entropy, noncentralMoment, validate_bad (not_lt.2 h), hv]

/-- Non-vacuity: the third moment of the uniform distribution on `[1, 3]` is 10. -/
example : noncentralMoment 3 (fin 1) (fin 3) = .ok (fin 10) := by
  have hv : validateMomentN 3 = .ok 3 := by simp [validateMomentN]
  simp [noncentralMoment, hv, validate_ok (show (1:ℝ) < 3 by norm_num), List.range_succ, mp.fsum, fin_div _ (show (3:ℝ) + 1 ≠ 0 by norm_num)]
  norm_num

end Mpsci.uniform

namespace Mpsci.laplace

open Classical Num Spec common Set

variable {loc s : ℝ}

theorem int01_Q : Int01 Q 0 := by
  have h := Int01.halves int01_log1m.neg (int01_log1m) (g := Q) (fun p h0 h1 => ?_) (fun p h0 h1 => ?_)
  · simpa using h
  · rw [Q, if_pos h1.le]; congr 1; ring
  · rw [Q, if_neg (not_le.2 h0)]; congr 2; ring

theorem int01_Q2 : Int01 (fun p => Q p ^ 2) 2 := by
  have h := Int01.halves int01_log1m_sq int01_log1m_sq (g := fun p => Q p ^ 2) (fun p h0 h1 => ?_) (fun p h0 h1 => ?_)
  · simpa using h
  · rw [Q, if_pos h1.le]; congr 2; ring
  · rw [Q, if_neg (not_le.2 h0), neg_sq]; congr 2; ring

theorem hasMV (hs : 0 < s) : HasMV (fun x => f ((x - loc) / s) / s) loc (2 * s ^ 2) := by
  have h := (HasMV.of_int01 isDist_std (fun p h0 h1 => (F_Q h0 h1).2) int01_Q int01_Q2 (v := 2) (by norm_num)).affine loc hs
  convert h using 1 <;> ring

/-- C37 -/
theorem isMean (hs : 0 < s) : IsMean ∅ (pdf · (fin loc) (fin s)) (mean (fin loc) (fin s)) :=
  (hasMV hs).isMean finite_empty (fun x _ => pdf_eval hs x) (by simp only [mean, validateLocScale_ok _ hs, ok_bind, pure_eq_ok])

/-- C37 -/
theorem isVar (hs : 0 < s) : IsVar ∅ (pdf · (fin loc) (fin s)) (var (fin loc) (fin s)) :=
  (hasMV hs).isVar finite_empty (fun x _ => pdf_eval hs x) (by
    simp only [var, validateLocScale_ok _ hs, ok_bind, pure_eq_ok, mp.ipow_fin, ofNat_def, fin_mul])

example : var (fin 5) (fin 3) = .ok (fin 18) := by
  simp only [var, validateLocScale_ok _ (three_pos (α := ℝ)), ok_bind, pure_eq_ok, mp.ipow_fin, ofNat_def, fin_mul]; norm_num

end Mpsci.laplace

namespace Mpsci.logistic

open Classical Num Spec common Set

variable {loc s : ℝ}

theorem int01_Q : Int01 Q 0 := by
  have h := int01_log.sub int01_log1m
  rw [sub_self] at h
  exact h

theorem int01_Q2 : Int01 (fun p => Q p ^ 2) (Real.pi ^ 2 / 3) := by
  have h := (int01_log_sq.sub (int01_log_mul_log1m.mul 2)).add int01_log1m_sq
  rw [show 2 - 2 * (2 - Real.pi ^ 2 / 6) + 2 = Real.pi ^ 2 / 3 by ring] at h
  exact h.congr fun p _ _ => by rw [Q]; ring

theorem hasMV (hs : 0 < s) : HasMV (fun x => f ((x - loc) / s) / s) loc (s ^ 2 * Real.pi ^ 2 / 3) := by
  have h := (HasMV.of_int01 isDist_std (fun p h0 h1 => (F_Q h0 h1).2) int01_Q int01_Q2 (v := Real.pi ^ 2 / 3) (by ring)).affine loc hs
  convert h using 1 <;> ring

/-- C37 -/
theorem isMean (hs : 0 < s) : IsMean ∅ (pdf · (fin loc) (fin s)) (mean (fin loc) (fin s)) :=
  (hasMV hs).isMean finite_empty (fun x _ => pdf_eval hs x) (by simp only [mean, validateLocScale_ok _ hs, ok_bind, pure_eq_ok])

/-- C37 -/
theorem isVar (hs : 0 < s) : IsVar ∅ (pdf · (fin loc) (fin s)) (var (fin loc) (fin s)) :=
  (hasMV hs).isVar finite_empty (fun x _ => pdf_eval hs x) (by
    simp only [var, validateLocScale_ok _ hs, ok_bind, mp.ipow_fin, mp.pi_def, ofNat_def, fin_mul, fin_div _ (three_ne_zero (α := ℝ))])

theorem f_eq (z : ℝ) : f z = F z * (1 - F z) := by
  rw [f, F]; have := den_pos z; field_simp; ring

theorem int01_log_f : Int01 (fun p => -Real.log (f (Q p))) 2 := by
  have h := (int01_log.add int01_log1m).neg
  norm_num at h
  refine h.congr fun p h0 h1 => ?_
  rw [f_eq, (F_Q h0 h1).2, Real.log_mul h0.ne' (by linarith)]
  ring

/-- C37 -/
theorem isEntropy (hs : 0 < s) : IsEntropy ∅ (pdf · (fin loc) (fin s)) (entropy (fin loc) (fin s)) := by
  refine HasEnt.isEntropy ((HasEnt.of_int01 isDist_std (fun p h0 h1 => (F_Q h0 h1).2) int01_log_f).affine loc hs fun z => (f_pos z).le)
    finite_empty (fun x _ => pdf_eval hs x) ?_
  simp only [entropy, validateLocScale_ok _ hs, ok_bind, mp.log_pos hs, pure_eq_ok, ofNat_def, fin_add]
  rw [add_comm]

example : ∃ e, entropy (fin 5) (fin 3) = .ok (fin e) := ⟨_, by
  simp only [entropy, validateLocScale_ok _ (three_pos (α := ℝ)), ok_bind, mp.log_pos (three_pos (α := ℝ)), pure_eq_ok, ofNat_def, fin_add]; rfl⟩

end Mpsci.logistic

namespace Mpsci.half_logistic

open Classical Num Spec common Set

variable {loc s : ℝ}

theorem Q_eq {p : ℝ} (h0 : 0 < p) (h1 : p < 1) : Q p = logistic.Q ((1 + p) / 2) := by
  rw [Q, logistic.Q, show 1 - (1 + p) / 2 = (1 - p) / 2 by ring, Real.log_div (by linarith) two_ne_zero, Real.log_div (by linarith) two_ne_zero]
  ring

theorem int01_Q : Int01 Q (2 * Real.log 2) := by
  have hc : ContinuousOn (fun p : ℝ => Real.log (1 + p)) (uIcc 0 1) :=
    ContinuousOn.log (by fun_prop) fun p hp => by rw [uIcc_of_le zero_le_one] at hp; linarith [hp.1]
  have h1 : Int01 (fun p => Real.log (1 + p)) (2 * Real.log 2 - 1) := by
    constructor
    · rw [← intervalIntegrable_iff_integrableOn_Ioo_of_le zero_le_one]; exact hc.intervalIntegrable
    · rw [← MeasureTheory.integral_Ioc_eq_integral_Ioo, ← intervalIntegral.integral_of_le zero_le_one,
        intervalIntegral.integral_comp_add_left (fun x => Real.log x) 1, integral_log]
      norm_num
      ring
  have h := h1.sub int01_log1m
  rwa [show 2 * Real.log 2 - 1 - -1 = 2 * Real.log 2 by ring] at h

theorem int01_Q2 : Int01 (fun p => Q p ^ 2) (Real.pi ^ 2 / 3) := by
  refine (logistic.int01_Q2.upper fun p _ _ => ?_).congr fun p h0 h1 => by rw [Q_eq h0 h1]
  simp only [logistic.Q, sub_sub_cancel]; ring

theorem log_four : Real.log 4 = 2 * Real.log 2 := by
  rw [show (4:ℝ) = 2 ^ 2 by norm_num, Real.log_pow]; norm_num

theorem hasMV (hs : 0 < s) : HasMV (fun x => f ((x - loc) / s) / s) (loc + s * Real.log 4) (s ^ 2 * (Real.pi ^ 2 / 3 - Real.log 4 ^ 2)) := by
  have h := (HasMV.of_int01 isDist_std (fun p h0 h1 => (F_Q one_pos h0 h1).2) int01_Q int01_Q2 (v := Real.pi ^ 2 / 3 - Real.log 4 ^ 2)
    (by rw [log_four]; ring)).affine loc hs
  convert h using 1
  rw [log_four]

/-- C37 -/
theorem isMean (hs : 0 < s) : IsMean ∅ (pdf · (fin loc) (fin s)) (mean (fin loc) (fin s)) :=
  (hasMV hs).isMean finite_empty (fun x _ => pdf_eval hs x) (by
    simp only [mean, validateLocScale_ok _ hs, ok_bind, pure_eq_ok, ofNat_def, mp.log_pos (show (0:ℝ) < 4 by norm_num), fin_mul, fin_add])

/-- C37 -/
theorem isVar (hs : 0 < s) : IsVar ∅ (pdf · (fin loc) (fin s)) (var (fin loc) (fin s)) :=
  (hasMV hs).isVar finite_empty (fun x _ => pdf_eval hs x) (by
    simp only [var, validateLocScale_ok _ hs, ok_bind, mp.ipow_fin, mp.pi_def, ofNat_def, fin_mul, fin_div _ (three_ne_zero (α := ℝ)),
      mp.log_pos (show (0:ℝ) < 4 by norm_num), fin_sub, pure_eq_ok])

/-- C37 -/
theorem isEntropy (hs : 0 < s) : IsEntropy ∅ (pdf · (fin loc) (fin s)) (entropy (fin loc) (fin s)) := by
  have hu := logistic.int01_log_f.upper fun p h0 h1 => by
    have e : logistic.Q (1 - p) = -logistic.Q p := by simp only [logistic.Q, sub_sub_cancel]; ring
    rw [logistic.f_eq, logistic.f_eq, (logistic.F_Q (p := 1 - p) (by linarith) (by linarith)).2, (logistic.F_Q h0 h1).2, sub_sub_cancel, mul_comm]
  have h : Int01 (fun p => -Real.log (f (Q p))) (2 - Real.log 2) := (hu.sub (Int01.const (Real.log 2))).congr fun p h0 h1 => by
    rw [f, if_neg (not_lt.2 (F_Q one_pos h0 h1).1.le), Q_eq h0 h1, Real.log_mul two_ne_zero (logistic.f_pos _).ne']
    ring
  refine HasEnt.isEntropy ((HasEnt.of_int01 isDist_std (fun p h0 h1 => (F_Q one_pos h0 h1).2) h).affine loc hs fun z => ?_)
    finite_empty (fun x _ => pdf_eval hs x) ?_
  · by_cases hz : z < 0
    · rw [f, if_pos hz]
    · exact (f_pos hz).le
  · simp only [entropy, validateLocScale_ok _ hs, ok_bind, ofNat_def, fin_div _ (two_ne_zero (α := ℝ)), mp.log_pos (half_pos hs), pure_eq_ok, fin_add]
    rw [Real.log_div hs.ne' two_ne_zero]
    congr 2; ring

example : ∃ v, var (fin 5) (fin 3) = .ok (fin v) := ⟨_, by
  simp only [var, validateLocScale_ok _ (three_pos (α := ℝ)), ok_bind, mp.ipow_fin, mp.pi_def, ofNat_def, fin_mul, fin_div _ (three_ne_zero (α := ℝ)),
      mp.log_pos (show (0:ℝ) < 4 by norm_num), fin_sub, pure_eq_ok]; rfl⟩

end Mpsci.half_logistic

namespace Mpsci.pareto

open Classical Num Spec common Set

variable {b loc s : ℝ}

theorem int01_Qn (hb : 0 < b) {n : ℕ} (h : (n:ℝ) < b) : Int01 (fun p => Q b p ^ n) (b / (b - n)) := by
  have h1 : -1 < -1 / b * n := by
    rw [div_mul_eq_mul_div, lt_div_iff₀ hb]; linarith
  have h2 := (int01_rpow h1).reflect
  rw [show 1 / (-1 / b * (n:ℝ) + 1) = b / (b - n) by
    have : b - n ≠ 0 := by linarith
    have h3 : -1 / b * (n:ℝ) + 1 ≠ 0 := by linarith
    rw [div_eq_div_iff h3 this]; field_simp; ring] at h2
  exact h2.congr fun p _ h1 => by rw [Q, Real.rpow_mul (by linarith), Real.rpow_natCast]

theorem hasMean (hb : 1 < b) (hs : 0 < s) : HasM (fun x => f b ((x - loc) / s) / s) (loc + s * (b / (b - 1))) := by
  have h0 : 0 < b := by linarith
  have h1 := int01_Qn h0 (n := 1) (by simpa using hb)
  rw [Nat.cast_one] at h1
  exact (HasM.of_int01 (isDist_std h0) (fun p h2 h3 => (F_Q h0 one_pos h2 h3).2) (h1.congr fun p _ _ => (pow_one _).symm)).affine loc hs

/-- C37: for `b > 1` -/
theorem isMean (hb : 1 < b) (hs : 0 < s) : IsMean ∅ (pdf · (fin b) (fin loc) (fin s)) (mean (fin b) (fin loc) (fin s)) :=
  (hasMean hb hs).isMean finite_empty (fun x _ => pdf_eval (by linarith) hs x) (by
    simp only [mean, validate_ok (by linarith : 0 < b) hs, ok_bind, one_def, fin_le, not_le.2 hb, if_false, fin_mul, fin_sub,
      fin_div _ (sub_ne_zero.2 hb.ne'), pure_eq_ok, fin_add, mul_div_assoc])

/-- C37: for `b ≤ 1` there is no finite mean, and `inf` is returned -/
theorem mean_none (h0 : 0 < b) (hb : b ≤ 1) (hs : 0 < s) :
    (¬ ∃ r, IsMean ∅ (pdf · (fin b) (fin loc) (fin s)) r) ∧ mean (fin b) (fin loc) (fin s) = .ok pinf := by
  refine ⟨not_isMean_of (fun x _ => pdf_eval h0 hs x) (isDist h0 hs) (Q := fun p => loc + s * Q b p) (fun p h2 h3 => ?_)
    (not_integrableOn_affine hs.ne' fun h => ?_), ?_⟩
  · simp only [add_sub_cancel_left, mul_div_cancel_left₀ _ hs.ne']; exact (F_Q h0 hs h2 h3).2
  · refine not_integrableOn_rpow (a := -1 / b) ?_ (integrableOn_reflect (g := fun p => p ^ (-1 / b)) h)
    rw [div_le_iff₀ h0]; linarith
  · simp only [mean, validate_ok h0 hs, ok_bind, one_def, fin_le, hb, if_true, pure_eq_ok]

/-- C37: for `b > 2` -/
theorem isVar (hb : 2 < b) (hs : 0 < s) : IsVar ∅ (pdf · (fin b) (fin loc) (fin s)) (var (fin b) (fin loc) (fin s)) := by
  have h0 : 0 < b := by linarith
  have h1 := int01_Qn h0 (n := 1) (by simpa using (by linarith : 1 < b))
  have h2 := int01_Qn h0 (n := 2) (by simpa using hb)
  rw [Nat.cast_one] at h1
  have e1 : b - 1 ≠ 0 := by linarith
  have e2 : b - 2 ≠ 0 := by linarith
  refine ((HasMV.of_int01 (isDist_std h0) (fun p h2 h3 => (F_Q h0 one_pos h2 h3).2) (h1.congr fun p _ _ => (pow_one _).symm) h2
    (v := b / (b - 1) ^ 2 / (b - 2)) ?_).affine loc hs).isVar finite_empty (fun x _ => pdf_eval h0 hs x) ?_
  · push_cast; field_simp; ring
  · simp only [var, validate_ok h0 hs, ok_bind, ofNat_def, fin_le, not_le.2 hb, if_false, one_def, fin_mul, fin_sub, mp.ipow_fin,
      fin_div _ (pow_ne_zero 2 e1), fin_div _ e2]
    congr 2; ring

/-- C37: for `b ≤ 2` there is no finite variance, and nan is returned -/
theorem var_none (h0 : 0 < b) (hb : b ≤ 2) (hs : 0 < s) :
    (¬ ∃ r, IsVar ∅ (pdf · (fin b) (fin loc) (fin s)) r) ∧ var (fin b) (fin loc) (fin s) = .ok nan := by
  refine ⟨not_isVar_of (fun x _ => pdf_eval h0 hs x) (isDist h0 hs) (Q := fun p => loc + s * Q b p) (fun p h2 h3 => ?_)
    (not_integrableOn_affine_sq (by unfold Q; fun_prop) hs.ne' fun h => ?_), ?_⟩
  · simp only [add_sub_cancel_left, mul_div_cancel_left₀ _ hs.ne']; exact (F_Q h0 hs h2 h3).2
  · refine not_integrableOn_rpow (a := -1 / b * (2:ℕ)) ?_ (integrableOn_reflect (g := fun p => p ^ (-1 / b * (2:ℕ))) ?_)
    · rw [div_mul_eq_mul_div, div_le_iff₀ h0]; push_cast; linarith
    · refine MeasureTheory.IntegrableOn.congr_fun h (fun p hp => ?_) measurableSet_Ioo
      rw [Q, Real.rpow_mul (by linarith [hp.2]), Real.rpow_natCast]
  · simp only [var, validate_ok h0 hs, ok_bind, ofNat_def, fin_le, hb, if_true, pure_eq_ok]

/-- C37 -/
theorem isEntropy (hb : 0 < b) (hs : 0 < s) : IsEntropy ∅ (pdf · (fin b) (fin loc) (fin s)) (entropy (fin b) (fin loc) (fin s)) := by
  have h : Int01 (fun p => -Real.log (f b (Q b p))) (-Real.log b + (-((b + 1) / b)) * (-1)) :=
    ((Int01.const (-Real.log b)).add (int01_log1m.mul (-((b + 1) / b)))).congr fun p h0 h1 => by
      have hq : 1 < Q b p := (F_Q hb one_pos h0 h1).1
      rw [f, if_neg (not_lt.2 hq.le), Real.log_mul hb.ne' (Real.rpow_pos_of_pos (by linarith) _).ne', Real.log_rpow (by linarith), Q,
        Real.log_rpow (by linarith)]
      field_simp; ring
  refine HasEnt.isEntropy ((HasEnt.of_int01 (isDist_std hb) (fun p h0 h1 => (F_Q hb one_pos h0 h1).2) h).affine loc hs fun z => ?_)
    finite_empty (fun x _ => pdf_eval hb hs x) ?_
  · by_cases hz : z < 1
    · rw [f, if_pos hz]
    · exact (f_pos hb hz).le
  · simp only [entropy, validate_ok hb hs, ok_bind, one_def, fin_div _ hb.ne', mp.log_pos (div_pos hs hb), pure_eq_ok, fin_add]
    rw [Real.log_div hs.ne' hb.ne']
    congr 2; field_simp; ring

example : mean (fin 3) (fin 1) (fin 2) = .ok (fin 4) := by
  have h : ¬ (3:ℝ) ≤ 1 := by norm_num
  simp only [mean, validate_ok (three_pos (α := ℝ)) (two_pos (α := ℝ)), ok_bind, one_def, fin_le, h, if_false, fin_mul, fin_sub,
    fin_div _ (show (3:ℝ) - 1 ≠ 0 by norm_num), pure_eq_ok, fin_add]
  norm_num

end Mpsci.pareto

namespace Mpsci.gumbel_max

open Classical Num Spec common Set

variable {loc s : ℝ}

theorem int01_Q : Int01 Q Real.eulerMascheroniConstant := by
  have h := (int01_loglog 1).neg
  rw [LG_one_one, neg_neg] at h
  exact h.congr fun p _ _ => by rw [Q, pow_one]

theorem int01_Q2 : Int01 (fun p => Q p ^ 2) (Real.eulerMascheroniConstant ^ 2 + Real.pi ^ 2 / 6) := by
  have h := int01_loglog 2
  rw [LG_two_one] at h
  exact h.congr fun p _ _ => by rw [Q, neg_sq]

theorem hasMV (loc : ℝ) (hs : 0 < s) : HasMV (fun x => f ((x - loc) / s) / s) (loc + s * Real.eulerMascheroniConstant) (s ^ 2 * (Real.pi ^ 2 / 6)) :=
  (HasMV.of_int01 isDist_std (fun p h0 h1 => (F_Q h0 h1).2) int01_Q int01_Q2 (v := Real.pi ^ 2 / 6) (by ring)).affine loc hs

/-- C37 -/
theorem isMean (hs : 0 < s) : IsMean ∅ (pdf · (fin loc) (fin s)) (mean (fin loc) (fin s)) :=
  (hasMV loc hs).isMean finite_empty (fun x _ => pdf_eval hs x) (by
    simp only [mean, validateLocScale_ok _ hs, ok_bind, pure_eq_ok, mp.euler_def, fin_mul, fin_add, mul_comm])

/-- C37 -/
theorem isVar (hs : 0 < s) : IsVar ∅ (pdf · (fin loc) (fin s)) (var (fin loc) (fin s)) :=
  (hasMV loc hs).isVar finite_empty (fun x _ => pdf_eval hs x) (by
    simp only [var, validateLocScale_ok _ hs, ok_bind, mp.ipow_fin, mp.pi_def, ofNat_def, fin_mul, fin_div _ (show (6:ℝ) ≠ 0 by norm_num), pure_eq_ok,
      mul_comm])

example : mean (fin 5) (fin 3) = .ok (fin (5 + Real.eulerMascheroniConstant * 3)) := by
  simp only [mean, validateLocScale_ok _ (three_pos (α := ℝ)), ok_bind, pure_eq_ok, mp.euler_def, fin_mul, fin_add]

end Mpsci.gumbel_max

namespace Mpsci.gumbel_min

open Classical Num Spec common Set

variable {loc s : ℝ}

theorem hasMV (hs : 0 < s) : HasMV (fun x => gumbel_max.f ((-x - -loc) / s) / s) (loc - Real.eulerMascheroniConstant * s) (s ^ 2 * (Real.pi ^ 2 / 6)) := by
  have h := (gumbel_max.hasMV (-loc) hs).reflect
  convert h using 1; ring

/-- C37 -/
theorem isMean (hs : 0 < s) : IsMean ∅ (pdf · (fin loc) (fin s)) (mean (fin loc) (fin s)) :=
  (hasMV hs).isMean finite_empty (fun x _ => (pdf_mirror x).trans (gumbel_max.pdf_eval hs _)) (by
    simp only [mean, validateLocScale_ok _ hs, ok_bind, pure_eq_ok, mp.euler_def, fin_mul, fin_sub])

/-- C37 -/
theorem isVar (hs : 0 < s) : IsVar ∅ (pdf · (fin loc) (fin s)) (var (fin loc) (fin s)) :=
  (hasMV hs).isVar finite_empty (fun x _ => (pdf_mirror x).trans (gumbel_max.pdf_eval hs _)) (by
    simp only [var, validateLocScale_ok _ hs, ok_bind, mp.ipow_fin, mp.pi_def, ofNat_def, fin_mul, fin_div _ (show (6:ℝ) ≠ 0 by norm_num), pure_eq_ok,
      mul_comm])

end Mpsci.gumbel_min
