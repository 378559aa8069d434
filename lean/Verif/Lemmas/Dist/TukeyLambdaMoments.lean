import Verif.Lemmas.Dist.TukeyLambda
import Verif.Lemmas.Int01
import Verif.Spec.QuantileMoments
import Mathlib.MeasureTheory.Function.L2Space

/-! `tukeylambda`: moments. -/

namespace Mpsci.tukeylambda

open Classical Num common Filter Topology Set Spec tkD MeasureTheory

variable {l m s : ℝ}

theorem int01_beta {a b : ℝ} (ha : 0 < a) (hb : 0 < b) : Int01 (fun p => p ^ (a - 1) * (1 - p) ^ (b - 1)) (betaFn a b) := by
  have h := betaIntegrable ha hb
  rw [intervalIntegrable_iff_integrableOn_Ioo_of_le zero_le_one] at h
  refine ⟨h, ?_⟩
  rw [← betaInt_full ha hb, betaInt, intervalIntegral.integral_of_le zero_le_one, integral_Ioc_eq_integral_Ioo]

/-- The `n`-th moment of the standard distribution. -/
noncomputable def SM (l : ℝ) (n : ℕ) : ℝ :=
  if n = 0 then 1 else if n % 2 = 1 then 0
  else (∑ k ∈ Finset.range (n + 1), (-1) ^ k * (n.choose k : ℝ) * betaFn (l * k + 1) (((n:ℝ) - k) * l + 1)) / l ^ n

theorem exp_pos_of {n k : ℕ} (h : -1 < l * n) (hk : k ≤ n) : 0 < l * k + 1 := by
  have hk' : (k:ℝ) ≤ n := by exact_mod_cast hk
  rcases le_or_gt 0 l with hl | hl
  · have := mul_nonneg hl (Nat.cast_nonneg (α := ℝ) k); linarith
  · have := mul_le_mul_of_nonpos_left hk' hl.le; linarith

theorem int01_Qn_sum (hl : l ≠ 0) {n : ℕ} (h : -1 < l * n) : Int01 (fun p => Q l p ^ n)
    ((∑ k ∈ Finset.range (n + 1), (-1) ^ k * (n.choose k : ℝ) * betaFn (l * k + 1) (((n:ℝ) - k) * l + 1)) / l ^ n) := by
  have h1 := (Int01.sum (Finset.range (n + 1)) fun k hk =>
    (int01_beta (exp_pos_of h (by simpa [Nat.lt_succ_iff] using hk : k ≤ n))
      (by
        have hk : k ≤ n := by simpa [Nat.lt_succ_iff] using hk
        have := exp_pos_of h (Nat.sub_le n k)
        rw [Nat.cast_sub hk] at this
        linarith : 0 < ((n:ℝ) - k) * l + 1)).mul ((-1) ^ k * (n.choose k : ℝ))).mul (1 / l ^ n)
  rw [one_div_mul_eq_div] at h1
  refine (h1.reflect).congr fun p h0 hp1 => ?_
  have hp : 0 < 1 - p := by linarith
  rw [Q, if_neg hl, div_pow, sub_eq_add_neg, add_comm, add_pow, Finset.sum_div, Finset.mul_sum]
  refine Finset.sum_congr rfl fun k hk => ?_
  have hk : k ≤ n := by simpa [Nat.lt_succ_iff] using hk
  rw [add_sub_cancel_right, add_sub_cancel_right, sub_sub_cancel, neg_pow, ← Real.rpow_mul_natCast hp.le, ← Real.rpow_mul_natCast h0.le,
    Nat.cast_sub hk, mul_comm ((n:ℝ) - k) l]
  ring

theorem int01_Qn (hl : l ≠ 0) {n : ℕ} (h : -1 < l * n) : Int01 (fun p => Q l p ^ n) (SM l n) := by
  have h1 := int01_Qn_sum hl h
  unfold SM
  split_ifs with h0 h2
  · subst h0; simpa using Int01.const 1
  · have h3 : Int01 (fun p => Q l p ^ n) (-(∫ p in Ioo (0:ℝ) 1, Q l p ^ n)) := by
      have := (show Int01 (fun p => Q l p ^ n) _ from ⟨h1.1, rfl⟩).reflect.neg
      refine this.congr fun p _ _ => ?_
      rw [Q_reflect, Odd.neg_pow (Nat.odd_iff.2 h2), neg_neg]
    refine ⟨h1.1, ?_⟩
    have := h3.2; linarith
  · exact h1

theorem snm_eval (hl : l ≠ 0) {n : ℕ} (h : -1 < l * n) : standardNoncentralMoment n (fin l) = .ok (fin (SM l n)) := by
  by_cases h0 : n = 0
  · simp [standardNoncentralMoment, SM, h0]
  by_cases h2 : n % 2 = 1
  · simp [standardNoncentralMoment, SM, h0, h2]
  have h3 : ∀ k ∈ List.range (n + 1),
      (do return fin ((-1) ^ k) * (← mp.binomial n k) * (← mp.beta (fin l * fin k + fin 1) (fin ((n:ℝ) - k) * fin l + fin 1)) : M Num) =
        .ok (fin ((-1) ^ k * (n.choose k : ℝ) * betaFn (l * k + 1) (((n:ℝ) - k) * l + 1))) := by
    intro k hk
    have hk : k ≤ n := by simpa [Nat.lt_succ_iff] using hk
    have a1 := exp_pos_of h hk
    have a2 : 0 < ((n:ℝ) - k) * l + 1 := by
      have := exp_pos_of h (Nat.sub_le n k)
      rw [Nat.cast_sub hk] at this
      linarith
    simp only [mp.binomial_nat, ok_bind, fin_mul, fin_add, mp.beta_fin a1 a2, pure_eq_ok]
  simp only [standardNoncentralMoment, h0, h2, if_false, fin_mul, fin_le, not_le.2 h, one_def]
  simp only [fin_mul] at h3
  rw [mapM_ok _ h3]
  simp only [ok_bind, mp.fsum_map_fin, mp.ipow_fin, fin_div _ (pow_ne_zero n hl), SM, h0, h2, if_false]
  rw [← List.sum_toFinset _ List.nodup_range, List.toFinset_range]

theorem moment_eval (hl : l ≠ 0) {n : ℕ} (h : -1 < l * n) (m : ℝ) (hs : 0 < s) : noncentralMoment n (fin l) (fin m) (fin s) =
    .ok (fin (∑ j ∈ Finset.range (n + 1), (n.choose j : ℝ) * m ^ (n - j) * s ^ j * SM l j)) := by
  have hv : validateMomentN (n : ℤ) = .ok n := by simp [validateMomentN]
  simp only [noncentralMoment, hv, validate_ok l m hs, ok_bind]
  by_cases h0 : n = 0
  · simp [h0, SM]
  have h1 : ∀ j ∈ List.range (n + 1),
      (do return (← mp.binomial n j) * mp.ipow (fin m) (n - j) * mp.ipow (fin s) j * (← standardNoncentralMoment j (fin l)) : M Num) =
        .ok (fin ((n.choose j : ℝ) * m ^ (n - j) * s ^ j * SM l j)) := by
    intro j hj
    have hj : j ≤ n := by simpa [Nat.lt_succ_iff] using hj
    simp only [mp.binomial_nat, ok_bind, fin_mul, mp.ipow_fin, snm_eval hl (by linarith [exp_pos_of h hj]), pure_eq_ok]
  simp only [h0, if_false]
  rw [mapM_ok _ h1]
  simp only [ok_bind, mp.fsum_map_fin, pure_eq_ok]
  rw [← List.sum_toFinset _ List.nodup_range, List.toFinset_range]

theorem int01_moment (hl : l ≠ 0) {n : ℕ} (h : -1 < l * n) (m s : ℝ) : Int01 (fun p => (m + s * Q l p) ^ n)
    (∑ j ∈ Finset.range (n + 1), (n.choose j : ℝ) * m ^ (n - j) * s ^ j * SM l j) := by
  have := Int01.sum (Finset.range (n + 1)) fun j hj =>
    (int01_Qn hl (n := j) (by linarith [exp_pos_of h (by simpa [Nat.lt_succ_iff] using hj : j ≤ n)])).mul
      ((n.choose j : ℝ) * m ^ (n - j) * s ^ j)
  refine this.congr fun p _ _ => ?_
  rw [add_comm, add_pow]
  exact Finset.sum_congr rfl fun j _ => by rw [mul_pow]; ring

/-! ### Mean and variance -/

theorem int01_Q (hl : -1 < l) : Int01 (Q l) 0 := by
  by_cases h0 : l = 0
  · have := int01_log.sub int01_log1m
    rw [sub_self] at this
    exact this.congr fun p _ _ => by rw [Q, if_pos h0]
  · have := ((int01_rpow hl).sub (int01_rpow hl).reflect).mul (1 / l)
    rw [sub_self, mul_zero] at this
    exact this.congr fun p _ _ => by rw [Q, if_neg h0]; ring

/-- The variance of the standard distribution. -/
noncomputable def V (l : ℝ) : ℝ :=
  if l = 0 then Real.pi ^ 2 / 3 else 2 / l ^ 2 * (1 / (1 + 2 * l) - Real.Gamma (l + 1) ^ 2 / Real.Gamma (2 * l + 2))

theorem int01_Q2 (hl : -(1 / 2) < l) : Int01 (fun p => Q l p ^ 2) (V l) := by
  by_cases h0 : l = 0
  · have := (int01_log_sq.add int01_log1m_sq).sub (int01_log_mul_log1m.mul 2)
    rw [show (2:ℝ) + 2 - 2 * (2 - Real.pi ^ 2 / 6) = V l by rw [V, if_pos h0]; ring] at this
    exact this.congr fun p _ _ => by rw [Q, if_pos h0]; ring
  · have h1 := int01_rpow (a := 2 * l) (by linarith)
    have h2 := int01_beta (a := l + 1) (b := l + 1) (by linarith) (by linarith)
    have := ((h1.add h1.reflect).sub (h2.mul 2)).mul (1 / l ^ 2)
    rw [show 1 / l ^ 2 * (1 / (2 * l + 1) + 1 / (2 * l + 1) - 2 * betaFn (l + 1) (l + 1)) = V l by
      rw [V, if_neg h0, betaFn, show l + 1 + (l + 1) = 2 * l + 2 by ring, show 2 * l + 1 = 1 + 2 * l by ring]; ring] at this
    refine this.congr fun p hp hp1 => ?_
    have hp' : 0 < 1 - p := by linarith
    rw [add_sub_cancel_right, Q, if_neg h0, div_pow, sub_sq, ← Real.rpow_mul_natCast hp.le, ← Real.rpow_mul_natCast hp'.le, Nat.cast_two,
      mul_comm l 2]
    ring

theorem mean_eval (hl : -1 < l) (m : ℝ) (hs : 0 < s) : mean (fin l) (fin m) (fin s) = .ok (fin m) := by
  simp [mean, validate_ok l m hs, hl]
theorem mean_nan (hl : l ≤ -1) (m : ℝ) (hs : 0 < s) : mean (fin l) (fin m) (fin s) = .ok nan := by
  simp [mean, validate_ok l m hs, hl.not_gt]

theorem var_eval (hl : -(1 / 2) < l) (m : ℝ) (hs : 0 < s) : var (fin l) (fin m) (fin s) = .ok (fin (s ^ 2 * V l)) := by
  by_cases h0 : l = 0
  · subst h0
    simp only [var, validate_ok 0 m hs, ok_bind, fin_le, not_le.2 hl, if_false, zero_def, fin_eq, if_true, mp.pi_def, fin_mul, mp.ipow_fin, V,
      ofNat_def]
    rw [fin_div _ (by norm_num), mul_pow, mul_div_assoc]
  · have h1 : 0 < l + 1 := by linarith
    have h2 : 0 < 2 * l + 2 := by linarith
    have h3 : 1 + 2 * l ≠ 0 := by have : 0 < 1 + 2 * l := by linarith
                                  exact this.ne'
    simp only [var, validate_ok l m hs, ok_bind, fin_le, not_le.2 hl, if_false, zero_def, fin_eq, h0, one_def, ofNat_def, fin_add, fin_mul,
      mp.gamma_pos h1, mp.gamma_pos h2, mp.ipow_fin, fin_div _ (pow_ne_zero 2 h0), fin_div _ h3, fin_div _ (Real.Gamma_pos_of_pos h2).ne', fin_sub,
      pure_eq_ok, V]
theorem var_nan (hl : l ≤ -(1 / 2)) (m : ℝ) (hs : 0 < s) : var (fin l) (fin m) (fin s) = .ok nan := by
  simp only [var, validate_ok l m hs, ok_bind, fin_le, hl, if_true, pure_eq_ok]

/-! ### Moments that do not exist -/

theorem bounded_half (hl : l < 0) {p : ℝ} (hp : p ∈ Ioo (0:ℝ) (1 / 2)) : ‖(1 - p) ^ l‖ ≤ 2 ^ (-l) := by
  rw [Real.norm_of_nonneg (Real.rpow_nonneg (by linarith [hp.2]) _), Real.rpow_neg (by norm_num), ← Real.inv_rpow (by norm_num)]
  exact Real.rpow_le_rpow_of_nonpos (by norm_num) (by rw [← one_div]; linarith [hp.2]) hl.le

theorem measurable_pow1m (l : ℝ) : Measurable fun p : ℝ => (1 - p) ^ l := (measurable_const.sub measurable_id).pow_const l

theorem not_int_Q (hl : l ≤ -1) : ¬ IntegrableOn (Q l) (Ioo 0 1) := fun h => by
  have hl0 : l < 0 := by linarith
  have h1 : IntegrableOn (Q l) (Ioo 0 (1 / 2)) := h.mono_set (Ioo_subset_Ioo le_rfl (by norm_num))
  have h2 : IntegrableOn (fun p : ℝ => (1 - p) ^ l) (Ioo 0 (1 / 2)) := by
    refine Measure.integrableOn_of_bounded (M := 2 ^ (-l)) (by simp) (measurable_pow1m l).aestronglyMeasurable ?_
    filter_upwards [ae_restrict_mem measurableSet_Ioo] with p hp using bounded_half hl0 hp
  have h3 : IntegrableOn (fun p : ℝ => p ^ l) (Ioo 0 (1 / 2)) := by
    refine ((h1.const_mul l).add h2).congr (Eventually.of_forall fun p => ?_)
    simp only [Pi.add_apply, Q, if_neg hl0.ne]
    rw [mul_div_cancel₀ _ hl0.ne]
    ring
  exact absurd ((intervalIntegral.integrableOn_Ioo_rpow_iff (by norm_num)).1 h3) hl.not_gt

theorem not_int_Q2 (hl : l ≤ -(1 / 2)) : ¬ IntegrableOn (fun p => Q l p ^ 2) (Ioo 0 1) := fun h => by
  have hl0 : l < 0 := by linarith
  have hmQ : AEStronglyMeasurable (Q l) (volume.restrict (Ioo 0 (1 / 2))) := by
    have : Measurable (Q l) := by
      have e : Q l = fun p => (p ^ l - (1 - p) ^ l) / l := by funext p; rw [Q, if_neg hl0.ne]
      rw [e]; exact ((measurable_id.pow_const l).sub (measurable_pow1m l)).div_const l
    exact this.aestronglyMeasurable
  have h1 : MemLp (Q l) 2 (volume.restrict (Ioo 0 (1 / 2))) :=
    (memLp_two_iff_integrable_sq hmQ).2 (h.mono_set (Ioo_subset_Ioo le_rfl (by norm_num)))
  have : IsFiniteMeasure (volume.restrict (Ioo (0:ℝ) (1 / 2))) := ⟨by simp⟩
  have h2 : MemLp (fun p : ℝ => (1 - p) ^ l) 2 (volume.restrict (Ioo 0 (1 / 2))) := by
    refine MemLp.of_bound (measurable_pow1m l).aestronglyMeasurable (2 ^ (-l)) ?_
    filter_upwards [ae_restrict_mem measurableSet_Ioo] with p hp using bounded_half hl0 hp
  have h3 : MemLp (fun p : ℝ => p ^ l) 2 (volume.restrict (Ioo 0 (1 / 2))) := by
    refine ((h1.const_mul l).add h2).ae_eq (Eventually.of_forall fun p => ?_)
    simp only [Pi.add_apply, Q, if_neg hl0.ne]
    rw [mul_div_cancel₀ _ hl0.ne]
    ring
  have h4 : IntegrableOn (fun p : ℝ => p ^ (2 * l)) (Ioo 0 (1 / 2)) := by
    refine IntegrableOn.congr_fun (h3.integrable_sq) (fun p hp => ?_) measurableSet_Ioo
    show (p ^ l) ^ 2 = p ^ (2 * l)
    rw [← Real.rpow_mul_natCast hp.1.le, Nat.cast_two, mul_comm]
  exact absurd ((intervalIntegral.integrableOn_Ioo_rpow_iff (by norm_num)).1 h4) (by linarith)

end Mpsci.tukeylambda
