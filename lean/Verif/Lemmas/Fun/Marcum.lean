import Verif.Lemmas.NcGamma
import Verif.Model.Fun.Special
import Verif.Spec.Marcum

namespace Mpsci.mq

open Classical Num Filter Topology MeasureTheory Set

variable {m a b x : ℝ}

/-- distribution function and density -/
noncomputable def F (m a x : ℝ) : ℝ := if x ≤ 0 then 0 else ncg.C m (a ^ 2 / 2) (x ^ 2 / 2)
noncomputable def f (m a x : ℝ) : ℝ := if x ≤ 0 then 0 else x * ncg.p m (a ^ 2 / 2) (x ^ 2 / 2)

theorem F_nonpos (h : x ≤ 0) : F m a x = 0 := if_pos h
theorem F_pos (h : 0 < x) : F m a x = ncg.C m (a ^ 2 / 2) (x ^ 2 / 2) := if_neg (not_le.2 h)
theorem f_nonpos (h : x ≤ 0) : f m a x = 0 := if_pos h

theorem isDist (hm : 0 < m) (a : ℝ) : IsDist (F m a) (f m a) :=
  (ncg.isDist hm (by positivity : 0 ≤ a ^ 2 / 2)).sqrt (ncg.C_nonpos le_rfl)

theorem f_pos (hm : 0 < m) (a : ℝ) (hx : 0 < x) : 0 < f m a x := by
  rw [f, if_neg (not_le.2 hx)]
  exact mul_pos hx (ncg.p_pos hm (by positivity) (by positivity))

theorem f_eq (ha : 0 < a) (hx : 0 < x) : f m a x = x * (x / a) ^ (m - 1) * Real.exp (-(x ^ 2 + a ^ 2) / 2) * besselIR (m - 1) (a * x) := by
  have hax : 0 < a * x := by positivity
  rw [f, if_neg (not_le.2 hx), ncg.p_pos' (by positivity), besselIR_eq _ hax, sub_add_cancel,
    show a ^ 2 / 2 * (x ^ 2 / 2) = (a * x / 2) ^ 2 by ring, show -(a ^ 2 / 2) - x ^ 2 / 2 = -(x ^ 2 + a ^ 2) / 2 by ring]
  have e : (x ^ 2 / 2) ^ (m - 1) = (x / a) ^ (m - 1) * (a * x / 2) ^ (m - 1) := by
    rw [← Real.mul_rpow (by positivity) (by positivity)]; congr 1; field_simp
  rw [e]; ring
theorem f_eq_zero (hx : 0 < x) : f m 0 x = x ^ (2 * m - 1) * Real.exp (-x ^ 2 / 2) / (2 ^ (m - 1) * Real.Gamma m) := by
  rw [f, if_neg (not_le.2 hx), show (0:ℝ) ^ 2 / 2 = 0 by norm_num, ncg.p_zero_l (by positivity), gammaD.f_of_nonneg (by positivity), gammaD.g,
    Real.div_rpow (by positivity) zero_le_two, ← Real.rpow_natCast x 2, ← Real.rpow_mul hx.le, show 2 * m - 1 = 1 + (2:ℕ) * (m - 1) by push_cast; ring,
    Real.rpow_add hx, Real.rpow_one, neg_div]
  field_simp
theorem f_eq_spec (ha : 0 ≤ a) (hx : 0 < x) : f m a x = Spec.marcumDensity m a x := by
  rcases ha.eq_or_lt with rfl | ha
  · rw [f_eq_zero hx, Spec.marcumDensity, if_pos rfl]
  · rw [f_eq ha hx, Spec.marcumDensity, if_neg ha.ne', besselIR]
    congr 1
    refine tsum_congr fun k => ?_
    rw [show (k:ℝ) + (m - 1) + 1 = k + m by ring]

theorem F_eq_int (hm : 0 < m) (ha : 0 ≤ a) (hb : 0 ≤ b) : F m a b = ∫ x in (0:ℝ)..b, Spec.marcumDensity m a x := by
  have h := (isDist hm a).integral_Ioc hb
  rw [F_nonpos le_rfl, sub_zero] at h
  rw [intervalIntegral.integral_of_le hb, ← h]
  exact setIntegral_congr_fun measurableSet_Ioc fun x hx => f_eq_spec ha hx.1

theorem F_strict (hm : 0 < m) (a : ℝ) : StrictMonoOn (F m a) (Ici 0) := by
  intro x hx y hy hxy
  have h := (isDist hm a).integral_Ioc hxy.le
  have hpos : 0 < ∫ t in Ioc x y, f m a t := by
    rw [setIntegral_pos_iff_support_of_nonneg_ae (Eventually.of_forall (isDist hm a).f_nonneg) (isDist hm a).integrable.integrableOn]
    have : Ioc x y ⊆ Function.support (f m a) ∩ Ioc x y := fun t ht => ⟨(f_pos hm a ((show (0:ℝ) ≤ x from hx).trans_lt ht.1)).ne', ht⟩
    refine lt_of_lt_of_le ?_ (measure_mono this)
    rw [Real.volume_Ioc]; simpa using hxy
  linarith

theorem integrand_eval (ha : 0 < a) (hx : 0 < x) : fun_.marcumIntegrand (fin x) (fin m) (fin a) = .ok (fin (f m a x)) := by
  have hxa : 0 < x / a := by positivity
  have hax : 0 < a * x := by positivity
  rw [f_eq ha hx]
  simp only [fun_.marcumIntegrand, mp.ipow_fin, fin_add, neg_fin, ofNat_def, Nat.cast_ofNat, fin_div _ (two_ne_zero (α := ℝ)), ok_bind, mp.exp_fin,
    fin_div _ ha.ne', one_def, fin_sub, mp.power_pos hxa, fin_mul, mp.besseliR_pos _ hax, pure_eq_ok]

theorem tail_exp (x : ℝ) (hx : 0 ≤ x) : gammaD.P 1 x = 1 - Real.exp (-x) := by
  have h := gammaD.gammaTail_eq (k := 1) one_pos hx
  rw [gammaTail, Real.Gamma_one, div_one] at h
  have e : ∫ t in Ioi x, t ^ ((1:ℝ) - 1) * Real.exp (-t) = Real.exp (-x) := by
    rw [← integral_exp_neg_Ioi x]
    refine setIntegral_congr_fun measurableSet_Ioi fun t _ => ?_
    simp
  rw [e] at h; linarith

theorem cmarcumq_eval (hm : 0 < m) (ha : 0 ≤ a) (hb : 0 ≤ b) : fun_.cmarcumq (fin m) (fin a) (fin b) = .ok (fin (F m a b)) := by
  have hb2 : 0 ≤ b ^ 2 / 2 := by positivity
  rcases ha.eq_or_lt with rfl | ha
  · have e : F m 0 b = gammaD.P m (b ^ 2 / 2) := by
      rcases hb.eq_or_lt with rfl | hb
      · rw [F_nonpos le_rfl, show (0:ℝ) ^ 2 / 2 = 0 by norm_num, gammaD.P_zero]
      · rw [F_pos hb, show (0:ℝ) ^ 2 / 2 = 0 by norm_num, ncg.C_zero_l hm, gammaD.F_pos (by positivity)]
    rw [e]
    simp only [fun_.cmarcumq, zero_def, fin_eq, if_true, one_def, mp.ipow_fin, neg_fin, ofNat_def, Nat.cast_ofNat, fin_div _ (two_ne_zero (α := ℝ)), ok_bind,
      mp.expm1_fin, pure_eq_ok]
    split_ifs with h1
    · rw [h1, tail_exp _ hb2, neg_div]; congr 2; ring
    · rw [mp.gammaincLowerReg, if_pos ⟨hm, hb2⟩, gammaD.P, gammaInt, intervalIntegral.integral_of_le hb2]
  · have h0 : ¬ (a = 0) := ha.ne'
    rcases hb.eq_or_lt with rfl | hb
    · rw [F_nonpos le_rfl]
      simp [fun_.cmarcumq, zero_def, h0, hm]
    · simp only [fun_.cmarcumq, zero_def, fin_eq, h0, hb.ne', if_false, false_and]
      rw [mp.quad_fin (F := f m a) hb.le (fun t h1 _ => integrand_eval ha h1) (isDist hm a).integrable.integrableOn, ← integral_Ioc_eq_integral_Ioo,
        (isDist hm a).integral_Ioc hb.le, F_nonpos le_rfl, sub_zero]

theorem marcumq_eval (hm : 0 < m) (ha : 0 ≤ a) (hb : 0 ≤ b) : fun_.marcumq (fin m) (fin a) (fin b) = .ok (fin (1 - F m a b)) := by
  have hb2 : 0 ≤ b ^ 2 / 2 := by positivity
  rcases ha.eq_or_lt with rfl | ha
  · have e : F m 0 b = gammaD.P m (b ^ 2 / 2) := by
      rcases hb.eq_or_lt with rfl | hb
      · rw [F_nonpos le_rfl, show (0:ℝ) ^ 2 / 2 = 0 by norm_num, gammaD.P_zero]
      · rw [F_pos hb, show (0:ℝ) ^ 2 / 2 = 0 by norm_num, ncg.C_zero_l hm, gammaD.F_pos (by positivity)]
    rw [e]
    simp only [fun_.marcumq, zero_def, fin_eq, if_true, one_def, mp.ipow_fin, neg_fin, ofNat_def, Nat.cast_ofNat, fin_div _ (two_ne_zero (α := ℝ)), ok_bind,
      mp.exp_fin, pure_eq_ok]
    split_ifs with h1
    · rw [h1, tail_exp _ hb2, neg_div]; congr 2; ring
    · rw [mp.gammaincUpperReg, if_pos ⟨hm, hb2⟩, ← gammaD.gammaTail_eq hm hb2, gammaTail]
  · have h0 : ¬ (a = 0) := ha.ne'
    rcases hb.eq_or_lt with rfl | hb
    · rw [F_nonpos le_rfl]
      simp [fun_.marcumq, zero_def, one_def, h0, hm]
    · simp only [fun_.marcumq, zero_def, fin_eq, h0, hb.ne', if_false, false_and]
      rw [mp.quad_pinf (F := f m a) (fun t h1 => integrand_eval ha (hb.trans h1)) (isDist hm a).integrable.integrableOn, (isDist hm a).integral_Ioi]

end Mpsci.mq
