import Verif.Lemmas.Dist.GammaGompertz
import Verif.Lemmas.Int01
import Verif.Base.Hyp2f1
import Mathlib.MeasureTheory.Integral.IntervalIntegral.IntegrationByParts

/-! The mean of the Gamma/Gompertz distribution, in terms of Gauss' hypergeometric function. -/

namespace Mpsci.gamma_gompertz

open Classical Num common Filter Topology Set MeasureTheory

variable {c b s : ℝ}

theorem den1_pos (hb : 0 < b) {r : ℝ} (h0 : 0 ≤ r) (h1 : r ≤ 1) : 0 < b + (1 - b) * r := by
  rcases h1.eq_or_lt with rfl | h1
  · linarith
  · have := mul_pos hb (sub_pos.2 h1); linarith

theorem root_mem (hc : 0 < c) {q : ℝ} (hq : q ∈ Icc (0:ℝ) 1) : 0 ≤ q ^ (1 / c) ∧ q ^ (1 / c) ≤ 1 :=
  ⟨Real.rpow_nonneg hq.1 _, Real.rpow_le_one hq.1 hq.2 (by positivity)⟩

theorem root_cont (hc : 0 < c) : Continuous fun q : ℝ => q ^ (1 / c) := Real.continuous_rpow_const (by positivity)

/-- The substitution `q = t ^ c`. -/
theorem int_subst (hc : 0 < c) (hb : 0 < b) :
    ∫ q in (0:ℝ)..1, b / (b + (1 - b) * q ^ (1 / c)) = eulerInt c 1 (c + 1) ((b - 1) / b) := by
  have hg : ContinuousOn (fun q : ℝ => b / (b + (1 - b) * q ^ (1 / c))) (Icc 0 1) := by
    have := root_cont hc
    refine ContinuousOn.div (by fun_prop) (by fun_prop) fun q hq => (den1_pos hb (root_mem hc hq).1 (root_mem hc hq).2).ne'
  have hf : Continuous fun t : ℝ => t ^ c := Real.continuous_rpow_const hc.le
  have him : ∀ t ∈ Icc (0:ℝ) 1, t ^ c ∈ Icc (0:ℝ) 1 := fun t ht => ⟨Real.rpow_nonneg ht.1 _, Real.rpow_le_one ht.1 ht.2 hc.le⟩
  have hI : IntervalIntegrable (fun t : ℝ => c * t ^ (c - 1)) volume 0 1 :=
    (intervalIntegral.intervalIntegrable_rpow' (by linarith)).const_mul c
  have h := intervalIntegral.integral_comp_mul_deriv''' (a := 0) (b := 1) (f := fun t : ℝ => t ^ c) (f' := fun t => c * t ^ (c - 1))
    (g := fun q : ℝ => b / (b + (1 - b) * q ^ (1 / c))) hf.continuousOn
    (fun t ht => by
      rw [min_eq_left zero_le_one, max_eq_right zero_le_one] at ht
      exact (Real.hasDerivAt_rpow_const (Or.inl ht.1.ne')).hasDerivWithinAt)
    (hg.mono (by
      rintro _ ⟨t, ht, rfl⟩
      rw [min_eq_left zero_le_one, max_eq_right zero_le_one] at ht
      exact him t ⟨ht.1.le, ht.2.le⟩))
    ((hg.integrableOn_compact isCompact_Icc).mono_set (by
      rintro _ ⟨t, ht, rfl⟩
      rw [uIcc_of_le zero_le_one] at ht
      exact him t ht))
    (by
      rw [← intervalIntegrable_iff']
      refine hI.continuousOn_mul ?_
      rw [uIcc_of_le zero_le_one]
      exact hg.comp hf.continuousOn him)
  simp only [Real.zero_rpow hc.ne', Real.one_rpow] at h
  rw [← h, eulerInt, ← intervalIntegral.integral_const_mul]
  have e : Real.Gamma (c + 1) / (Real.Gamma c * Real.Gamma (c + 1 - c)) = c := by
    have := (Real.Gamma_pos_of_pos hc).ne'
    rw [add_sub_cancel_left, Real.Gamma_one, Real.Gamma_add_one hc.ne']; field_simp
  refine intervalIntegral.integral_congr fun t ht => ?_
  rw [uIcc_of_le zero_le_one] at ht
  have h1 : (t ^ c) ^ (1 / c) = t := by rw [← Real.rpow_mul ht.1, mul_one_div_cancel hc.ne', Real.rpow_one]
  have h2 := den1_pos hb ht.1 ht.2
  have h3 : 1 - (b - 1) / b * t = (b + (1 - b) * t) / b := by field_simp; ring
  simp only [Function.comp_def, h1]
  rw [e, h3, add_sub_cancel_left, sub_self, Real.rpow_zero, Real.rpow_neg_one, inv_div]
  ring

theorem int_log (hc : 0 < c) (hb : 0 < b) :
    ∫ q in (0:ℝ)..1, Real.log (b + (1 - b) * q ^ (1 / c)) = 1 / c * eulerInt c 1 (c + 1) ((b - 1) / b) - 1 / c := by
  have hr := root_cont hc
  have hden : ContinuousOn (fun q : ℝ => b + (1 - b) * q ^ (1 / c)) (Icc 0 1) := by fun_prop
  have hne : ∀ q ∈ Icc (0:ℝ) 1, b + (1 - b) * q ^ (1 / c) ≠ 0 := fun q hq => (den1_pos hb (root_mem hc hq).1 (root_mem hc hq).2).ne'
  have hL : ContinuousOn (fun q : ℝ => Real.log (b + (1 - b) * q ^ (1 / c))) (Icc 0 1) := hden.log hne
  have hK : ContinuousOn (fun q : ℝ => b / (b + (1 - b) * q ^ (1 / c))) (Icc 0 1) := continuousOn_const.div hden hne
  have hd : ∀ q ∈ Ioo (0:ℝ) 1, HasDerivAt (fun q : ℝ => q * Real.log (b + (1 - b) * q ^ (1 / c)))
      (Real.log (b + (1 - b) * q ^ (1 / c)) + 1 / c * (1 - b / (b + (1 - b) * q ^ (1 / c)))) q := by
    intro q hq
    have h0 := hne q ⟨hq.1.le, hq.2.le⟩
    have h1 : HasDerivAt (fun q : ℝ => b + (1 - b) * q ^ (1 / c)) ((1 - b) * (1 / c * q ^ (1 / c - 1))) q :=
      ((Real.hasDerivAt_rpow_const (Or.inl hq.1.ne')).const_mul (1 - b)).const_add b
    refine ((hasDerivAt_id q).mul (h1.log h0)).congr_deriv ?_
    have e : q ^ (1 / c - 1) = q ^ (1 / c) / q := by rw [Real.rpow_sub hq.1, Real.rpow_one]
    have hq0 := hq.1.ne'
    rw [e]
    simp only [id]
    field_simp
    ring
  have hu : uIcc (0:ℝ) 1 = Icc 0 1 := uIcc_of_le zero_le_one
  have i1 : IntervalIntegrable (fun q : ℝ => Real.log (b + (1 - b) * q ^ (1 / c))) volume 0 1 := (hu ▸ hL).intervalIntegrable
  have i2 : IntervalIntegrable (fun q : ℝ => b / (b + (1 - b) * q ^ (1 / c))) volume 0 1 := (hu ▸ hK).intervalIntegrable
  have i3 : IntervalIntegrable (fun q : ℝ => 1 / c * (1 - b / (b + (1 - b) * q ^ (1 / c)))) volume 0 1 :=
    (intervalIntegrable_const.sub i2).const_mul _
  have h := intervalIntegral.integral_eq_sub_of_hasDerivAt_of_le zero_le_one (continuousOn_id.mul hL) hd (i1.add i3)
  rw [intervalIntegral.integral_add i1 i3, intervalIntegral.integral_const_mul, intervalIntegral.integral_sub intervalIntegrable_const i2,
    int_subst hc hb] at h
  simp at h
  rw [one_div]
  linarith

theorem Q_eq (hc : 0 < c) (hb : 0 < b) {p : ℝ} (h0 : 0 < p) (h1 : p < 1) :
    Q c b (1 - p) = -(1 / c) * Real.log p + Real.log (b + (1 - b) * p ^ (1 / c)) := by
  have hr := Real.rpow_pos_of_pos h0 (1 / c)
  have h2 := den1_pos hb hr.le (root_mem hc ⟨h0.le, h1.le⟩).2
  have e : 1 + b * (p ^ (-1 / c) - 1) = (b + (1 - b) * p ^ (1 / c)) / p ^ (1 / c) := by
    rw [neg_div, Real.rpow_neg h0.le]; field_simp; ring
  rw [Q, sub_sub_cancel, e, Real.log_div h2.ne' hr.ne', Real.log_rpow h0]; ring

theorem int_Q (hc : 0 < c) (hb : 0 < b) : Int01 (Q c b) (1 / c * eulerInt c 1 (c + 1) ((b - 1) / b)) := by
  have hr := root_cont hc
  have hne : ∀ q ∈ Icc (0:ℝ) 1, b + (1 - b) * q ^ (1 / c) ≠ 0 := fun q hq => (den1_pos hb (root_mem hc hq).1 (root_mem hc hq).2).ne'
  have hL : ContinuousOn (fun q : ℝ => Real.log (b + (1 - b) * q ^ (1 / c))) (Icc 0 1) := ContinuousOn.log (by fun_prop) hne
  have j : Int01 (fun q : ℝ => Real.log (b + (1 - b) * q ^ (1 / c))) (1 / c * eulerInt c 1 (c + 1) ((b - 1) / b) - 1 / c) := by
    refine ⟨(hL.integrableOn_compact isCompact_Icc).mono_set Ioo_subset_Icc_self, ?_⟩
    rw [← integral_Ioc_eq_integral_Ioo, ← intervalIntegral.integral_of_le zero_le_one, int_log hc hb]
  have h := (int01_log.mul (-(1 / c))).add j
  have h2 : Int01 (fun p => Q c b (1 - p)) (1 / c * eulerInt c 1 (c + 1) ((b - 1) / b)) := by
    rw [show 1 / c * eulerInt c 1 (c + 1) ((b - 1) / b) = -(1 / c) * -1 + (1 / c * eulerInt c 1 (c + 1) ((b - 1) / b) - 1 / c) by ring]
    exact h.congr fun p h0 h1 => Q_eq hc hb h0 h1
  exact h2.reflect.congr fun p _ _ => by rw [sub_sub_cancel]

theorem hasM (hc : 0 < c) (hb : 0 < b) : HasM (f c b) (1 / c * eulerInt c 1 (c + 1) ((b - 1) / b)) :=
  HasM.of_int01 (isDist_std hc hb) (fun p h0 h1 => (F_Q hc hb one_pos h0 h1).2) (int_Q hc hb)

end Mpsci.gamma_gompertz
