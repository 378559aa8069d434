import Verif.Lemmas.Dist.Exponweib
import Verif.Lemmas.Int01More
import Mathlib.Analysis.Analytic.Binomial
import Mathlib.MeasureTheory.Integral.DominatedConvergence

/-! The series for the moments of the exponentiated Weibull distribution. -/

namespace Mpsci.exponweib

open Classical MeasureTheory Set Filter Topology

variable {a r : ℝ}

/-- The coefficients of `(1 - u)^(a - 1)`. -/
noncomputable def coef (a : ℝ) : ℕ → ℝ
  | 0 => 1
  | i + 1 => coef a i * (1 - a / ((i:ℝ) + 1))

theorem choose_succ (r : ℝ) (n : ℕ) : Ring.choose r (n + 1) = Ring.choose r n * (r - n) / ((n:ℝ) + 1) := by
  have h1 := Ring.descPochhammer_eq_factorial_smul_choose r (n + 1)
  have h2 := Ring.descPochhammer_eq_factorial_smul_choose r n
  rw [descPochhammer_succ_right, Polynomial.smeval_mul, h2, Polynomial.smeval_sub, Polynomial.smeval_X, Polynomial.smeval_natCast] at h1
  simp only [npow_one, npow_zero, nsmul_eq_mul, mul_one, Nat.factorial_succ] at h1
  push_cast at h1
  have hf : (n.factorial : ℝ) ≠ 0 := by positivity
  have hn : (n:ℝ) + 1 ≠ 0 := by positivity
  rw [eq_div_iff hn]
  refine mul_left_cancel₀ hf ?_
  linarith

theorem coef_choose (a : ℝ) (n : ℕ) : coef a n = (-1) ^ n * Ring.choose (a - 1) n := by
  induction n with
  | zero => simp [coef]
  | succ n ih =>
    rw [coef, ih, choose_succ, pow_succ]
    have hn : (n:ℝ) + 1 ≠ 0 := by positivity
    field_simp; ring

theorem hasSum_coef (a : ℝ) {u : ℝ} (h0 : 0 < u) (h1 : u < 1) : HasSum (fun i => coef a i * u ^ i) ((1 - u) ^ (a - 1)) := by
  have h := (Real.one_add_rpow_hasFPowerSeriesOnBall_zero (a := a - 1)).hasSum (y := -u) (by
    simp [abs_of_pos h0, h1, enorm_eq_nnnorm, ← NNReal.coe_lt_coe])
  simp only [binomialSeries_apply, zero_add, List.ofFn_const, List.prod_replicate, smul_eq_mul] at h
  rw [sub_eq_add_neg 1 u]
  have e : (fun i => coef a i * u ^ i) = fun n => Ring.choose (a - 1) n * (-u) ^ n := by
    funext i
    rw [coef_choose, neg_pow u]; ring
  rw [e]; exact h

theorem summable_coef (ha : 0 < a) : Summable fun i : ℕ => |coef a i| / ((i:ℝ) + 1) := by
  obtain ⟨N, hN⟩ := exists_nat_ge a
  have hstep : ∀ i, N ≤ i → |coef a i| / ((i:ℝ) + 1) = (|coef a i| - |coef a (i + 1)|) / a := fun i hi => by
    have : a ≤ (i:ℝ) + 1 := by
      have : (N:ℝ) ≤ i := by exact_mod_cast hi
      linarith
    have h2 : 0 ≤ 1 - a / ((i:ℝ) + 1) := by rw [sub_nonneg, div_le_one (by positivity)]; exact this
    rw [coef, abs_mul, abs_of_nonneg h2]
    field_simp; ring
  rw [← summable_nat_add_iff N]
  refine summable_of_sum_range_le (c := |coef a N| / a) (fun i => by positivity) fun m => ?_
  have : ∑ i ∈ Finset.range m, |coef a (i + N)| / (((i + N : ℕ):ℝ) + 1) = (|coef a N| - |coef a (m + N)|) / a := by
    induction m with
    | zero => simp
    | succ m ih => rw [Finset.sum_range_succ, ih, hstep _ (Nat.le_add_left _ _), show m + 1 + N = m + N + 1 by ring]; ring
  rw [this]
  gcongr
  linarith [abs_nonneg (coef a (m + N))]

/-- `∫₀¹ u^i (-log u)^r du = Γ(r+1) (i+1)^(-(r+1))` -/
theorem int01_pow_log (hr : 0 ≤ r) (i : ℕ) : Int01 (fun u => u ^ i * (-Real.log u) ^ r) (Real.Gamma (r + 1) * ((i:ℝ) + 1) ^ (-(r + 1))) := by
  have h := int01_neg_log (h := fun x => Real.exp (-(i * x)) * x ^ r) (v := Real.Gamma (r + 1) * ((i:ℝ) + 1) ^ (-(r + 1)))
    (by fun_prop) ?_ ?_
  · refine h.congr fun p h0 _ => ?_
    rw [mul_neg (i:ℝ), neg_neg, ← Real.log_pow, Real.exp_log (by positivity)]
  · have := integrableOn_rpow_mul_exp_neg_mul_rpow (s := r) (p := 1) (b := (i:ℝ) + 1) (by linarith) (by norm_num) (by positivity)
    refine this.congr_fun (fun x _ => ?_) measurableSet_Ioi
    simp only [Real.rpow_one]
    rw [mul_right_comm, ← Real.exp_add]; ring_nf
  · have := Real.integral_rpow_mul_exp_neg_mul_Ioi (a := r + 1) (r := (i:ℝ) + 1) (by linarith) (by positivity)
    rw [one_div, Real.inv_rpow (by positivity), ← Real.rpow_neg (by positivity), mul_comm, add_sub_cancel_right] at this
    rw [← this]
    refine setIntegral_congr_fun measurableSet_Ioi fun x _ => ?_
    rw [mul_right_comm, ← Real.exp_add]; ring_nf

theorem integrable_beta_log (ha : 0 < a) (hr : 0 ≤ r) : IntegrableOn (fun u => (1 - u) ^ (a - 1) * (-Real.log u) ^ r) (Ioo 0 1) := by
  have i1 := (int01_neg_log_rpow (s := r) (by linarith)).1
  have i2 := (int01_rpow (a := a - 1) (by linarith)).reflect.1
  set C1 : ℝ := 1 + (1 / 2 : ℝ) ^ (a - 1)
  set C2 : ℝ := (Real.log 2) ^ r
  refine Integrable.mono' ((i1.const_mul C1).add (i2.const_mul C2)) (Measurable.aestronglyMeasurable (by fun_prop)) ?_
  filter_upwards [ae_restrict_mem measurableSet_Ioo] with u hu
  have hl : 0 < -Real.log u := neg_pos.2 (Real.log_neg hu.1 hu.2)
  have h1 : 0 < 1 - u := by linarith [hu.2]
  have p1 : 0 < (1 - u) ^ (a - 1) := Real.rpow_pos_of_pos h1 _
  have p2 : 0 < (-Real.log u) ^ r := Real.rpow_pos_of_pos hl _
  have p3 : 0 < (1 / 2 : ℝ) ^ (a - 1) := by positivity
  have p4 : 0 ≤ Real.log 2 ^ r := Real.rpow_nonneg (Real.log_nonneg one_le_two) _
  rw [Real.norm_of_nonneg (by positivity)]
  simp only [Pi.add_apply]
  by_cases h : u ≤ 1 / 2
  · have : (1 - u) ^ (a - 1) ≤ C1 := by
      by_cases h2 : 0 ≤ a - 1
      · have := Real.rpow_le_one h1.le (by linarith [hu.1]) h2
        simp only [C1]; linarith
      · have := Real.rpow_le_rpow_of_nonpos (by norm_num : (0:ℝ) < 1 / 2) (by linarith : 1 / 2 ≤ 1 - u) (not_le.1 h2).le
        simp only [C1]; linarith
    have h3 := mul_le_mul_of_nonneg_right this p2.le
    have h4 : 0 ≤ C2 * (1 - u) ^ (a - 1) := by positivity
    linarith
  · have : (-Real.log u) ^ r ≤ C2 := by
      refine Real.rpow_le_rpow hl.le ?_ hr
      have := Real.log_le_log (by norm_num) (not_le.1 h).le
      rw [one_div, Real.log_inv] at this
      linarith
    have h3 := mul_le_mul_of_nonneg_left this p1.le
    have h4 : 0 ≤ C1 * (-Real.log u) ^ r := by positivity
    linarith

/-- The sum of the series. -/
noncomputable def S (a r : ℝ) : ℝ := ∑' i : ℕ, coef a i * ((i:ℝ) + 1) ^ (-(r + 1))

theorem hasSum_S (ha : 0 < a) (hr : 0 ≤ r) : HasSum (fun i : ℕ => coef a i * ((i:ℝ) + 1) ^ (-(r + 1))) (S a r) := by
  refine Summable.hasSum (Summable.of_norm_bounded (summable_coef ha) fun i => ?_)
  have h1 : (1:ℝ) ≤ (i:ℝ) + 1 := by have := Nat.cast_nonneg (α := ℝ) i; linarith
  rw [norm_mul, Real.norm_of_nonneg (by positivity : (0:ℝ) ≤ ((i:ℝ) + 1) ^ (-(r + 1))), Real.norm_eq_abs, div_eq_mul_inv]
  refine mul_le_mul_of_nonneg_left ?_ (abs_nonneg _)
  rw [← Real.rpow_neg_one]
  exact Real.rpow_le_rpow_of_exponent_le h1 (by linarith)

theorem int01_series (ha : 0 < a) (hr : 0 ≤ r) :
    Int01 (fun u => (1 - u) ^ (a - 1) * (-Real.log u) ^ r) (Real.Gamma (r + 1) * S a r) := by
  refine ⟨integrable_beta_log ha hr, ?_⟩
  have hG : 0 < Real.Gamma (r + 1) := Real.Gamma_pos_of_pos (by linarith)
  have hI := fun i => (int01_pow_log hr i).mul (coef a i)
  have hn : ∀ i : ℕ, ∫ u in Ioo (0:ℝ) 1, ‖coef a i * (u ^ i * (-Real.log u) ^ r)‖ =
      Real.Gamma (r + 1) * ‖coef a i * ((i:ℝ) + 1) ^ (-(r + 1))‖ := fun i => by
    have h := ((int01_pow_log hr i).mul |coef a i|).2
    rw [norm_mul, Real.norm_of_nonneg (by positivity : (0:ℝ) ≤ ((i:ℝ) + 1) ^ (-(r + 1))), Real.norm_eq_abs]
    rw [show Real.Gamma (r + 1) * (|coef a i| * ((i:ℝ) + 1) ^ (-(r + 1))) = |coef a i| * (Real.Gamma (r + 1) * ((i:ℝ) + 1) ^ (-(r + 1))) by ring, ← h]
    refine setIntegral_congr_fun measurableSet_Ioo fun u hu => ?_
    have hl : 0 < -Real.log u := neg_pos.2 (Real.log_neg hu.1 hu.2)
    have p2 : 0 < (-Real.log u) ^ r := Real.rpow_pos_of_pos hl _
    have p1 : 0 < u ^ i := pow_pos hu.1 i
    rw [norm_mul, Real.norm_of_nonneg (by positivity : 0 ≤ u ^ i * (-Real.log u) ^ r), Real.norm_eq_abs]
  have h := hasSum_integral_of_summable_integral_norm (μ := volume.restrict (Ioo (0:ℝ) 1)) (fun i => (hI i).1)
    (by simp only [hn]; exact ((hasSum_S ha hr).summable.norm).mul_left _)
  have e : ∫ u in Ioo (0:ℝ) 1, ∑' i, coef a i * (u ^ i * (-Real.log u) ^ r) = ∫ u in Ioo (0:ℝ) 1, (1 - u) ^ (a - 1) * (-Real.log u) ^ r := by
    refine setIntegral_congr_fun measurableSet_Ioo fun u hu => ?_
    have := (hasSum_coef a hu.1 hu.2).mul_right ((-Real.log u) ^ r)
    simp only [mul_assoc] at this
    exact this.tsum_eq
  rw [e] at h
  have h2 := (hasSum_S ha hr).mul_left (Real.Gamma (r + 1))
  refine h.unique ?_
  have e2 : (fun i : ℕ => ∫ u in Ioo (0:ℝ) 1, coef a i * (u ^ i * (-Real.log u) ^ r)) =
      fun i : ℕ => Real.Gamma (r + 1) * (coef a i * ((i:ℝ) + 1) ^ (-(r + 1))) := by
    funext i
    rw [(hI i).2]; ring
  rw [e2]; exact h2

/-- The moments of the standard quantile function. -/
theorem int01_Q {c : ℝ} (ha : 0 < a) (hc : 0 < c) (n : ℕ) :
    Int01 (fun p => Q a c p ^ n) (a * (Real.Gamma (n / c + 1) * S a (n / c))) := by
  have hr : 0 ≤ (n:ℝ) / c := by positivity
  have h := ((int01_series ha hr).reflect.mul a)
  have h2 : Int01 (fun v => a * v ^ (a - 1) * (fun v => (-Real.log (1 - v)) ^ ((n:ℝ) / c)) v) (a * (Real.Gamma (n / c + 1) * S a (n / c))) :=
    h.congr fun v _ _ => by simp only [sub_sub_cancel]; ring
  refine (h2.comp_rpow ha).congr fun p h0 h1 => ?_
  have := log_q_pos ha h0 h1
  rw [Q, ← Real.rpow_natCast, ← Real.rpow_mul this.le]
  congr 1; ring

end Mpsci.exponweib
