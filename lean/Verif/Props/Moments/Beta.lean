import Verif.Lemmas.Int01More
import Verif.Lemmas.NoMoment
import Verif.Lemmas.BetaDist
import Verif.Lemmas.Fun.Digammainv
import Verif.Lemmas.Dist.Loglogistic
import Verif.Lemmas.Dist.Burr12
import Verif.Lemmas.Dist.Kumaraswamy
import Mathlib.Analysis.SpecialFunctions.Gamma.Beta

/-! Moments of `loglogistic`, `burr12` and `kumaraswamy`, which are values of the beta function. -/

namespace Mpsci.loglogistic

open Classical Num Spec common Set MeasureTheory

variable {b s : ℝ}

theorem beta_sinc {t : ℝ} (h0 : 0 ≤ t) (h1 : t < 1) : betaFn (1 + t) (1 - t) = 1 / Real.sinc (Real.pi * t) := by
  have e : Real.Gamma (1 + t + (1 - t)) = 1 := by
    rw [show 1 + t + (1 - t) = 2 by ring]; simpa using Real.Gamma_nat_eq_factorial 1
  rcases h0.eq_or_lt with rfl | h
  · rw [betaFn, e]; simp
  · have hp : 0 < Real.pi * t := by positivity
    rw [betaFn, e, div_one, add_comm, Real.Gamma_add_one h.ne', mul_assoc, Real.Gamma_mul_Gamma_one_sub, Real.sinc_of_ne_zero hp.ne']
    rw [one_div_div, mul_div_assoc', mul_comm]

theorem sinc_pos {t : ℝ} (h0 : 0 ≤ t) (h1 : t < 1) : 0 < Real.sinc (Real.pi * t) := by
  rw [← one_div_pos, ← beta_sinc h0 h1]; exact betaFn_pos (by linarith) (by linarith)

theorem Q_pow {p : ℝ} (h0 : 0 < p) (h1 : p < 1) (n : ℕ) : Q b p ^ n = (p / (1 - p)) ^ (n / b) := by
  have : 0 < 1 - p := by linarith
  rw [Q, ← Real.rpow_natCast, ← Real.rpow_mul (by positivity)]; congr 1; ring

theorem int01_Qn (hb : 0 < b) {n : ℕ} (h : (n:ℝ) < b) : Int01 (fun p => Q b p ^ n) (1 / Real.sinc (Real.pi * (n / b))) := by
  have ht0 : (0:ℝ) ≤ n / b := by positivity
  have ht1 : (n:ℝ) / b < 1 := (div_lt_one hb).2 h
  rw [← beta_sinc ht0 ht1]
  refine (int01_betaFn (a := 1 + n / b) (b := 1 - n / b) (by linarith) (by linarith)).congr fun p h0 h1 => ?_
  have : 0 < 1 - p := by linarith
  rw [Q_pow h0 h1, Real.div_rpow h0.le this.le, add_sub_cancel_left, show 1 - (n:ℝ) / b - 1 = -(n / b) by ring, Real.rpow_neg this.le]
  rfl

theorem not_int_Qn (hb : 0 < b) {n : ℕ} (h : b ≤ n) : ¬ IntegrableOn (fun p => Q b p ^ n) (Ioo 0 1) := by
  have h1 : 1 ≤ (n:ℝ) / b := (one_le_div hb).2 h
  refine not_integrableOn_tail (a := -(n / b)) (c := (1 / 2) ^ (n / b : ℝ)) (q := 1 / 2) (by linarith) (by positivity) (by norm_num) (by norm_num)
    fun p h2 h3 => ?_
  have : 0 < 1 - p := by linarith
  rw [Q_pow (by linarith) h3, Real.rpow_neg this.le, ← div_eq_mul_inv, ← Real.div_rpow (by norm_num) this.le]
  refine Real.rpow_le_rpow (by positivity) ?_ (by linarith)
  gcongr

theorem F_aff (hb : 0 < b) (hs : 0 < s) (p : ℝ) (h0 : 0 < p) (h1 : p < 1) : (fun x => F b (x / s)) (0 + s * Q b p) = p := by
  simp only [zero_add, mul_div_cancel_left₀ _ hs.ne']; exact (F_Q hb hs h0 h1).2

/-- C37: for `beta > 1` -/
theorem isMean (hb : 1 < b) (hs : 0 < s) : IsMean ∅ (pdf · (fin b) (fin s)) (mean (fin b) (fin s)) := by
  have h0 : 0 < b := by linarith
  have h1 := int01_Qn h0 (n := 1) (by simpa using hb)
  rw [Nat.cast_one] at h1
  refine ((HasM.of_int01 (isDist_std h0) (fun p h2 h3 => (F_Q h0 one_pos h2 h3).2) (h1.congr fun p _ _ => (pow_one _).symm)).scale hs).isMean
    finite_empty (fun x _ => pdf_eval h0 hs x) ?_
  simp only [mean, validate_ok h0 hs, ok_bind, one_def, gt_iff, fin_lt, hb, if_true, fin_div _ h0.ne', mp.sincpi_fin,
    fin_div _ (sinc_pos (t := 1 / b) (by positivity) ((div_lt_one h0).2 hb)).ne']
  congr 2; ring

/-- C37: for `beta ≤ 1` there is no mean, and nan is returned -/
theorem mean_none (h0 : 0 < b) (hb : b ≤ 1) (hs : 0 < s) :
    (¬ ∃ r, IsMean ∅ (pdf · (fin b) (fin s)) r) ∧ mean (fin b) (fin s) = .ok nan :=
  ⟨not_isMean_aff hs.ne' (fun x _ => pdf_eval h0 hs x) (isDist h0 hs) (F_aff h0 hs) (not_int_Qn h0 (by simpa using hb)), by
    simp only [mean, validate_ok h0 hs, ok_bind, one_def, gt_iff, fin_lt, not_lt.2 hb, if_false, pure_eq_ok]⟩

/-- C37: for `beta > 2` -/
theorem isVar (hb : 2 < b) (hs : 0 < s) : IsVar ∅ (pdf · (fin b) (fin s)) (var (fin b) (fin s)) := by
  have h0 : 0 < b := by linarith
  have h1 := int01_Qn h0 (n := 1) (by simpa using (by linarith : 1 < b))
  have h2 := int01_Qn h0 (n := 2) (by simpa using hb)
  rw [Nat.cast_one] at h1
  rw [Nat.cast_ofNat] at h2
  have s1 := (sinc_pos (t := 1 / b) (by positivity) ((div_lt_one h0).2 (by linarith))).ne'
  have s2 := (sinc_pos (t := 2 / b) (by positivity) ((div_lt_one h0).2 hb)).ne'
  refine (hasMV_of_affine (isDist h0 hs) (F_aff h0 hs) (h1.congr fun p _ _ => (pow_one _).symm) h2).isVar
    finite_empty (fun x _ => pdf_eval h0 hs x) ?_
  simp only [var, validate_ok h0 hs, ok_bind, one_def, ofNat_def, gt_iff, fin_lt, hb, if_true, fin_div _ h0.ne', mp.sincpi_fin,
    fin_div _ s2, mp.ipow_fin, fin_div _ (pow_ne_zero 2 s1), fin_mul, fin_sub, pure_eq_ok]
  simp only [one_div, inv_pow]

/-- C37: for `beta ≤ 2` there is no variance, and nan is returned -/
theorem var_none (h0 : 0 < b) (hb : b ≤ 2) (hs : 0 < s) :
    (¬ ∃ r, IsVar ∅ (pdf · (fin b) (fin s)) r) ∧ var (fin b) (fin s) = .ok nan :=
  ⟨not_isVar_aff hs.ne' (fun x _ => pdf_eval h0 hs x) (isDist h0 hs) (F_aff h0 hs) (not_int_Qn h0 (by simpa using hb)), by
    simp only [var, validate_ok h0 hs, ok_bind, ofNat_def, gt_iff, fin_lt, not_lt.2 hb, if_false, pure_eq_ok]⟩

/-- C50: for `n < beta` -/
theorem isMoment (h0 : 0 < b) (hs : 0 < s) {n : ℕ} (hn : (n:ℝ) < b) : IsMoment ∅ (pdf · (fin b) (fin s)) n (noncentralMoment n (fin b) (fin s)) := by
  have hv : validateMomentN (n : ℤ) = .ok n := by simp [validateMomentN]
  have hp := (sinc_pos (t := n / b) (by positivity) ((div_lt_one h0).2 hn)).ne'
  have h := (int01_Qn h0 hn).mul (s ^ n)
  refine isMoment_of_int01 finite_empty (fun x _ => pdf_eval h0 hs x) (isDist h0 hs) (F_aff h0 hs) (h.congr fun p _ _ => ?_) ?_
  · rw [zero_add, mul_pow]
  · simp only [noncentralMoment, hv, validate_ok h0 hs, ok_bind, ge_iff, fin_le, not_le.2 hn, if_false, mp.pi_def, fin_mul, fin_div _ h0.ne', mp.sinc_fin,
      mul_div_assoc, mp.ipow_fin, fin_div _ hp]
    rw [mul_one_div]

/-- C50: for `beta ≤ n` there is no moment of order `n`, and nan is returned -/
theorem moment_none (h0 : 0 < b) (hs : 0 < s) {n : ℕ} (hn : b ≤ n) :
    (¬ ∃ r, IsMoment ∅ (pdf · (fin b) (fin s)) n r) ∧ noncentralMoment n (fin b) (fin s) = .ok nan := by
  have hv : validateMomentN (n : ℤ) = .ok n := by simp [validateMomentN]
  refine ⟨not_isMoment_aff hs.ne' (fun x _ => pdf_eval h0 hs x) (isDist h0 hs) (F_aff h0 hs) (not_int_Qn h0 hn), ?_⟩
  simp only [noncentralMoment, hv, validate_ok h0 hs, ok_bind, ge_iff, fin_le, hn, if_true, pure_eq_ok]

/-- C50 -/
theorem moment_rejects {n : ℤ} (hn : n < 0) : noncentralMoment n (fin b) (fin s) = .error .valueError := by
  simp [noncentralMoment, validateMomentN, hn]

/-- C37, C50: bad parameters are rejected -/
theorem moments_validate (h : ¬ (0 < b ∧ 0 < s)) (n : ℕ) : mean (fin b) (fin s) = .error .valueError ∧ var (fin b) (fin s) = .error .valueError ∧
    noncentralMoment n (fin b) (fin s) = .error .valueError := by
  have hv : validateMomentN (n : ℤ) = .ok n := by simp [validateMomentN]
  refine ⟨?_, ?_, ?_⟩ <;> simp [mean, var, noncentralMoment, hv, validate_bad h]

/-- Non-vacuity: for `beta = 2` the mean is `π/2` times the scale. -/
example : mean (fin 2) (fin 3) = .ok (fin (3 * Real.pi / 2)) := by
  have hp : 0 < Real.pi / 2 := by positivity
  have h : Real.sinc (Real.pi * (1 / 2)) = 2 / Real.pi := by
    rw [Real.sinc_of_ne_zero (by positivity), show Real.pi * (1 / 2) = Real.pi / 2 by ring, Real.sin_pi_div_two, one_div_div]
  simp only [mean, validate_ok (two_pos (α := ℝ)) (three_pos (α := ℝ)), ok_bind, one_def, gt_iff, fin_lt, one_lt_two, if_true,
    fin_div _ (two_ne_zero (α := ℝ)), mp.sincpi_fin, h, fin_div _ (show 2 / Real.pi ≠ 0 by positivity)]
  congr 2; field_simp

end Mpsci.loglogistic

namespace Mpsci.burr12

open Classical Num Spec common Set MeasureTheory

variable {c d s : ℝ}

theorem int01_Qn (hc : 0 < c) (hd : 0 < d) {n : ℕ} (h : (n:ℝ) < c * d) : Int01 (fun p => Q c d p ^ n) (d * betaFn (d - n / c) (1 + n / c)) := by
  have h1 : 0 < d - n / c := by rw [sub_pos, div_lt_iff₀ hc]; linarith
  have h2 : 0 < 1 + n / c := by positivity
  have h3 : Int01 (fun u => (((u ^ (1 / d))⁻¹ - 1) ^ (n / c : ℝ))) (d * betaFn (d - n / c) (1 + n / c)) := by
    refine Int01.comp_rpow (g := fun v => (v⁻¹ - 1) ^ (n / c : ℝ)) hd (((int01_betaFn h1 h2).mul d).congr fun v h0 h4 => ?_)
    have h5 : 0 < 1 - v := by linarith
    rw [show v⁻¹ - 1 = (1 - v) / v by field_simp, Real.div_rpow h5.le h0.le, add_sub_cancel_left, show d - n / c - 1 = (d - 1) - n / c by ring,
      Real.rpow_sub h0 (d - 1)]
    field_simp
  refine h3.reflect.congr fun p h0 h4 => ?_
  have hp : 0 < 1 - p := by linarith
  have hq := q_pos hd hp (by linarith)
  rw [Q, ← Real.rpow_natCast, ← Real.rpow_mul hq.le, neg_div, Real.rpow_neg hp.le, one_div_mul_eq_div]

theorem not_int_Qn (hc : 0 < c) (hd : 0 < d) {n : ℕ} (h : c * d ≤ n) : ¬ IntegrableOn (fun p => Q c d p ^ n) (Ioo 0 1) := by
  have h1 : 1 ≤ (n:ℝ) / (c * d) := (one_le_div (by positivity)).2 h
  have hh : (1 / 2 : ℝ) ^ d < 1 := Real.rpow_lt_one (by norm_num) (by norm_num) hd
  have hh0 : 0 < (1 / 2 : ℝ) ^ d := by positivity
  refine not_integrableOn_tail (a := -(n / (c * d))) (c := (1 / 2) ^ (n / c : ℝ)) (q := 1 - (1 / 2) ^ d) (by linarith) (by positivity) (by linarith)
    (by linarith) fun p h2 h3 => ?_
  have hp : 0 < 1 - p := by linarith
  have hq := q_pos hd hp (by linarith)
  have h4 : (1 - p) ^ (1 / d) ≤ 1 / 2 := by
    have := Real.rpow_le_rpow hp.le (show 1 - p ≤ (1 / 2) ^ d by linarith) (show 0 ≤ 1 / d by positivity)
    rwa [← Real.rpow_mul (by norm_num), mul_one_div_cancel hd.ne', Real.rpow_one] at this
  have h5 : 0 < (1 - p) ^ (1 / d) := by positivity
  rw [Q, ← Real.rpow_natCast, ← Real.rpow_mul hq.le, one_div_mul_eq_div,
    show (1 - p) ^ (-(n / (c * d)) : ℝ) = ((1 - p) ^ (-1 / d)) ^ (n / c : ℝ) by rw [← Real.rpow_mul hp.le]; congr 1; field_simp,
    ← Real.mul_rpow (by norm_num) (by positivity)]
  refine Real.rpow_le_rpow (by positivity) ?_ (by positivity)
  have h6 : 2 ≤ (1 - p) ^ (-1 / d) := by
    rw [neg_div, Real.rpow_neg hp.le, le_inv_comm₀ two_pos h5]; linarith
  linarith

theorem F_aff (hc : 0 < c) (hd : 0 < d) (hs : 0 < s) (p : ℝ) (h0 : 0 < p) (h1 : p < 1) : (fun x => F c d (x / s)) (0 + s * Q c d p) = p := by
  simp only [zero_add, mul_div_cancel_left₀ _ hs.ne']; exact (F_Q hc hd hs h0 h1).2

theorem mean_eval (hc : 0 < c) (hd : 0 < d) (h : 1 < c * d) (hs : 0 < s) :
    mean (fin c) (fin d) (fin s) = .ok (fin (d * betaFn (d - 1 / c) (1 + 1 / c) * s)) := by
  have h1 : 0 < d - 1 / c := by rw [sub_pos, div_lt_iff₀ hc]; linarith
  simp only [mean, validate_ok hc hd hs, ok_bind, one_def, fin_mul, fin_le, not_le.2 h, if_false, fin_div _ hc.ne', fin_sub, fin_add,
    mp.beta_fin h1 (show 0 < 1 + 1 / c by positivity), pure_eq_ok]

/-- C37: for `c d > 1` -/
theorem isMean (hc : 0 < c) (hd : 0 < d) (h : 1 < c * d) (hs : 0 < s) :
    IsMean ∅ (pdf · (fin c) (fin d) (fin s)) (mean (fin c) (fin d) (fin s)) := by
  have h1 := int01_Qn hc hd (n := 1) (by simpa using h)
  rw [Nat.cast_one] at h1
  refine ((HasM.of_int01 (isDist_std hc hd) (fun p h2 h3 => (F_Q hc hd one_pos h2 h3).2) (h1.congr fun p _ _ => (pow_one _).symm)).scale hs).isMean
    finite_empty (fun x _ => pdf_eval hc hd hs x) ?_
  rw [mean_eval hc hd h hs, mul_comm]

/-- C37: for `c d ≤ 1` there is no mean, and nan is returned -/
theorem mean_none (hc : 0 < c) (hd : 0 < d) (h : c * d ≤ 1) (hs : 0 < s) :
    (¬ ∃ r, IsMean ∅ (pdf · (fin c) (fin d) (fin s)) r) ∧ mean (fin c) (fin d) (fin s) = .ok nan :=
  ⟨not_isMean_aff hs.ne' (fun x _ => pdf_eval hc hd hs x) (isDist hc hd hs) (F_aff hc hd hs) (not_int_Qn hc hd (by simpa using h)), by
    simp only [mean, validate_ok hc hd hs, ok_bind, one_def, fin_mul, fin_le, h, if_true, pure_eq_ok]⟩

/-- C37: for `c d > 2` -/
theorem isVar (hc : 0 < c) (hd : 0 < d) (h : 2 < c * d) (hs : 0 < s) :
    IsVar ∅ (pdf · (fin c) (fin d) (fin s)) (var (fin c) (fin d) (fin s)) := by
  have h1 := int01_Qn hc hd (n := 1) (by simpa using (by linarith : 1 < c * d))
  have h2 := int01_Qn hc hd (n := 2) (by simpa using h)
  rw [Nat.cast_one] at h1
  rw [Nat.cast_ofNat] at h2
  have h3 : 0 < d - 2 / c := by rw [sub_pos, div_lt_iff₀ hc]; linarith
  refine (hasMV_of_affine (isDist hc hd hs) (F_aff hc hd hs) (h1.congr fun p _ _ => (pow_one _).symm) h2).isVar
    finite_empty (fun x _ => pdf_eval hc hd hs x) ?_
  have hm := mean_eval hc hd (by linarith : 1 < c * d) one_pos
  rw [mul_one] at hm
  simp only [var, validate_ok hc hd hs, ok_bind, one_def, ofNat_def, fin_mul, fin_le, not_le.2 h, if_false, hm, fin_div _ hc.ne', fin_sub, fin_add,
    mp.beta_fin h3 (show 0 < 1 + 2 / c by positivity), pure_eq_ok, mp.ipow_fin, neg_fin]
  congr 2; ring

/-- C37: for `c d ≤ 2` there is no variance, and nan is returned -/
theorem var_none (hc : 0 < c) (hd : 0 < d) (h : c * d ≤ 2) (hs : 0 < s) :
    (¬ ∃ r, IsVar ∅ (pdf · (fin c) (fin d) (fin s)) r) ∧ var (fin c) (fin d) (fin s) = .ok nan :=
  ⟨not_isVar_aff hs.ne' (fun x _ => pdf_eval hc hd hs x) (isDist hc hd hs) (F_aff hc hd hs) (not_int_Qn hc hd (by simpa using h)), by
    simp only [var, validate_ok hc hd hs, ok_bind, ofNat_def, fin_mul, fin_le, h, if_true, pure_eq_ok]⟩

/-- Non-vacuity: for `c = 1`, `d = 2` the mean is the scale. -/
example : mean (fin 1) (fin 2) (fin 3) = .ok (fin 3) := by
  rw [mean_eval one_pos two_pos (by norm_num) three_pos]
  have h1 : Real.Gamma 2 = 1 := by simpa using Real.Gamma_nat_eq_factorial 1
  have h2 : Real.Gamma 3 = 2 := by simpa using Real.Gamma_nat_eq_factorial 2
  norm_num [betaFn, h1, h2]

end Mpsci.burr12

namespace Mpsci.kumaraswamy

open Classical Num Spec common Set MeasureTheory

variable {a b : ℝ}

theorem int01_Qn (ha : 0 < a) (hb : 0 < b) (n : ℕ) : Int01 (fun p => Q a b p ^ n) (b * betaFn (1 + n / a) b) := by
  obtain ⟨h1, h2⟩ := (isDist ha hb).expect (fun p h0 h1 => (F_Q ha hb h0 h1).2) (h := fun x => x ^ n) (by fun_prop)
  obtain ⟨h3, h4⟩ := moment ha hb n
  exact ⟨h1.2 h3, by rw [h2, h4]⟩

/-- C37 -/
theorem isSkewness (ha : 0 < a) (hb : 0 < b) : IsSkewness (Ends a b) (pdf · (fin a) (fin b)) (skewness (fin a) (fin b)) := by
  have h1 := int01_Qn ha hb 1
  have h2 := int01_Qn ha hb 2
  have h3 := int01_Qn ha hb 3
  push_cast at h1 h2 h3
  refine isSkewness_of (a := 0) (b := 1) ends_finite (fun x hx => pdf_eval ha hb x hx) (isDist ha hb) (f_nonneg ha hb)
    (fun p h0 h1 => by rw [zero_add, one_mul]; exact (F_Q ha hb h0 h1).2) (h1.congr fun p _ _ => (pow_one _).symm) h2 h3 fun hv => ?_
  simp only [one_pow, one_mul] at hv ⊢
  have hp := Real.rpow_pos_of_pos hv (3 / 2)
  have hm : noncentralMoment 3 (fin a) (fin b) = .ok (fin (b * betaFn (1 + 3 / a) b)) := by
    have e : validateMomentN 3 = .ok 3 := by simp [validateMomentN]
    simp only [noncentralMoment, e, validate_ok ha hb, ok_bind, one_def, Nat.cast_ofNat, fin_div _ ha.ne', fin_add,
      mp.beta_fin (show 0 < 1 + 3 / a by positivity) hb, fin_mul, pure_eq_ok, OfNat.ofNat_ne_zero, if_false]
  simp only [skewness, validate_ok ha hb, ok_bind, mean_eval ha hb, var_eval ha hb, hm, ofNat_def, mp.ipow_fin, fin_mul, fin_add, fin_sub,
    mp.power_pos hv, fin_div _ hp.ne']
  congr 3; ring

theorem Q_beta (hb : 0 < b) {p : ℝ} (h0 : 0 < p) (h1 : p < 1) : betaD.Q b 1 p = p ^ (1 / b) := by
  have hx := betaD.Q_mem (a := b) (b := 1) p
  have hq : 0 < p ^ (1 / b) := by positivity
  have hq1 : p ^ (1 / b) < 1 := Real.rpow_lt_one h0.le h1 (by positivity)
  refine (betaD.P_strictMonoOn hb one_pos).injOn ⟨hx.1.le, hx.2.le⟩ ⟨hq.le, hq1.le⟩ ?_
  rw [betaD.P_Q hb one_pos h0 h1]
  have e1 : betaFn b 1 = 1 / b := by
    rw [betaFn, Real.Gamma_one, mul_one, Real.Gamma_add_one hb.ne']
    have := (Real.Gamma_pos_of_pos hb).ne'
    field_simp
  rw [betaD.P, e1, betaInt]
  simp only [sub_self, Real.rpow_zero, mul_one]
  rw [integral_rpow (Or.inl (by linarith)), sub_add_cancel, Real.zero_rpow hb.ne', ← Real.rpow_mul h0.le, one_div_mul_cancel hb.ne', Real.rpow_one]
  field_simp; ring

/-- C37 -/
theorem isEntropy (ha : 0 < a) (hb : 0 < b) : IsEntropy (Ends a b) (pdf · (fin a) (fin b)) (entropy (fin a) (fin b)) := by
  have h1 : Int01 (fun p => Real.log (1 - p ^ (1 / b))) (-Real.eulerMascheroniConstant - psi (b + 1)) := by
    have h := betaD.E_log1m hb one_pos
    rw [fun_.psi_one] at h
    exact Int01.congr h fun p h0 h1 => by rw [Q_beta hb h0 h1]
  have h2 := (((Int01.const (-(Real.log a + Real.log b))).add (h1.reflect.mul (-(1 - 1 / a)))).add (int01_log1m.mul (-(1 - 1 / b))))
  have h3 : Int01 (fun p => -Real.log (f a b (Q a b p)))
      (1 - 1 / b + (1 - 1 / a) * (psi (b + 1) + Real.eulerMascheroniConstant) - Real.log a - Real.log b) := by
    rw [show -(Real.log a + Real.log b) + -(1 - 1 / a) * (-Real.eulerMascheroniConstant - psi (b + 1)) + -(1 - 1 / b) * -1 =
      1 - 1 / b + (1 - 1 / a) * (psi (b + 1) + Real.eulerMascheroniConstant) - Real.log a - Real.log b by ring] at h2
    refine h2.congr fun p h0 h1 => ?_
    have hp : 0 < 1 - p := by linarith
    have hq := q_lt hb hp (by linarith)
    have hQ := (F_Q ha hb h0 h1).1
    have e1 : Q a b p ^ a = 1 - (1 - p) ^ (1 / b) := by
      rw [Q, ← Real.rpow_mul hq.le, one_div_mul_cancel ha.ne', Real.rpow_one]
    have e2 : 0 < (1 - p) ^ (1 / b) := by positivity
    have e3 : Real.log (Q a b p) = 1 / a * Real.log (1 - (1 - p) ^ (1 / b)) := by rw [Q, Real.log_rpow hq]
    rw [f, if_neg (by push Not; exact ⟨hQ.1.le, hQ.2.le⟩), e1, sub_sub_cancel, Real.log_mul (mul_pos (mul_pos ha hb) (Real.rpow_pos_of_pos hQ.1 _)).ne'
      (by positivity),
      Real.log_mul (by positivity) (Real.rpow_pos_of_pos hQ.1 _).ne', Real.log_mul ha.ne' hb.ne', Real.log_rpow hQ.1, e3, Real.log_rpow e2,
      Real.log_rpow hp]
    field_simp; ring
  refine (HasEnt.of_int01 (isDist ha hb) (fun p h0 h1 => (F_Q ha hb h0 h1).2) h3).isEntropy ends_finite (fun x hx => pdf_eval ha hb x hx) ?_
  simp only [entropy, harmonicNumber, validate_ok ha hb, ok_bind, one_def, fin_div _ ha.ne', fin_div _ hb.ne', fin_sub, fin_add, fin_mul,
    mp.digamma_pos (show 0 < b + 1 by linarith), mp.euler_def, mp.log_pos ha, mp.log_pos hb, pure_eq_ok]

/-- Non-vacuity: the entropy of the uniform case is 0. -/
example : entropy (fin 1) (fin 1) = .ok (fin 0) := by
  simp only [entropy, harmonicNumber, validate_ok (one_pos (α := ℝ)) (one_pos (α := ℝ)), ok_bind, one_def, fin_div _ (one_ne_zero (α := ℝ)), fin_sub, fin_add,
    fin_mul, mp.digamma_pos (show (0:ℝ) < 1 + 1 by norm_num), mp.euler_def, mp.log_pos (one_pos (α := ℝ)), pure_eq_ok]
  simp

end Mpsci.kumaraswamy
