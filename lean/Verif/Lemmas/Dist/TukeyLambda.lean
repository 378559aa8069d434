import Verif.Model.Dist.TukeyLambda
import Verif.Lemmas.TukeyDist
import Verif.Lemmas.Common
import Verif.Lemmas.Helpers
import Verif.Lemmas.Common.Bracket
import Verif.Spec.Search

namespace Mpsci.tukeylambda

open Classical Num common Filter Topology Set Spec tkD

variable {l m s p z : ℝ}

theorem validate_ok (l m : ℝ) (hs : 0 < s) : validateParams (fin l) (fin m) (fin s) = .ok (fin l, fin m, fin s) := by
  simp [validateParams, validateLocScale_ok _ hs]
theorem validate_bad (l m : ℝ) (h : s ≤ 0) : validateParams (fin l) (fin m) (fin s) = .error .valueError := by
  simp [validateParams, validateLocScale_bad _ h]
theorem validate_std (l : ℝ) : validateParams (fin l) 0 1 = .ok (fin l, fin 0, fin 1) := by
  have := validate_ok l 0 one_pos
  simpa only [zero_def, one_def] using this

theorem invStd_eval (l : ℝ) (hp : p ∈ Ioo (0:ℝ) 1) : invStd (fin p) (fin l) = .ok (fin (Q l p)) := by
  have h1 : 0 < 1 - p := sub_pos.2 hp.2
  have hl1 : mp.log1p (fin (-p)) = .ok (fin (Real.log (1 - p))) := mp_log1p_neg hp.2
  by_cases h : l = 0
  · simp only [invStd, zero_def, fin_eq, h, if_true, mp.log_pos hp.1, neg_fin, hl1, ok_bind, fin_sub, pure_eq_ok, Q]
  · simp only [invStd, zero_def, fin_eq, h, if_false, mp.power_pos hp.1, neg_fin, hl1, ok_bind, fin_mul, mp.exp_fin, fin_sub, fin_div _ h, Q]
    rw [mul_comm l, ← Real.rpow_def_of_pos h1]

theorem invStd_zero (hl : 0 < l) : invStd (fin 0) (fin l) = .ok (fin (Q l 0)) := by
  have hl1 : mp.log1p (fin 0) = .ok (fin 0) := mp_log1p_zero
  simp only [invStd, zero_def, fin_eq, hl.ne', if_false, mp.power_zero_pos hl, neg_fin, neg_zero, hl1, ok_bind, fin_mul, mul_zero, mp.exp_fin,
    Real.exp_zero, fin_sub, fin_div _ hl.ne', Q, Real.zero_rpow hl.ne', sub_zero, Real.one_rpow]

theorem invStd_one (hl : 0 < l) : invStd (fin 1) (fin l) = .ok (fin (Q l 1)) := by
  simp only [invStd, zero_def, fin_eq, hl.ne', if_false, mp.power_pos one_pos, neg_fin, mp.log1p_neg_one, ok_bind, fin_mul_ninf, scaleInf_pos hl,
    mp.exp_ninf, fin_sub, fin_div _ hl.ne', Q, Real.zero_rpow hl.ne', sub_zero, Real.one_rpow, sub_self]

theorem invStd_closed (hl : 0 < l) (hp : p ∈ Icc (0:ℝ) 1) : invStd (fin p) (fin l) = .ok (fin (Q l p)) := by
  rcases hp.1.eq_or_lt with rfl | h0
  · exact invStd_zero hl
  rcases hp.2.eq_or_lt with rfl | h1
  · exact invStd_one hl
  exact invStd_eval l ⟨h0, h1⟩

theorem invcdf_eval (l m : ℝ) (hs : 0 < s) (hp : p ∈ Ioo (0:ℝ) 1) : invcdf (fin p) (fin l) (fin m) (fin s) = .ok (fin (m + s * Q l p)) := by
  simp only [invcdf, validateP_ok hp.1.le hp.2.le, validate_ok l m hs, ok_bind, zero_def, one_def, fin_eq, hp.1.ne', hp.2.ne, and_false, if_false,
    invStd_eval l hp, fin_mul, fin_add, pure_eq_ok]

theorem invcdf_closed (m : ℝ) (hl : 0 < l) (hs : 0 < s) (hp : p ∈ Icc (0:ℝ) 1) :
    invcdf (fin p) (fin l) (fin m) (fin s) = .ok (fin (m + s * Q l p)) := by
  simp only [invcdf, validateP_ok hp.1 hp.2, validate_ok l m hs, ok_bind, zero_def, one_def, fin_lt, hl.not_gt, false_and, if_false,
    invStd_closed hl hp, fin_mul, fin_add, pure_eq_ok]

theorem invcdf_std (l : ℝ) (hp : p ∈ Ioo (0:ℝ) 1) : invcdf (fin p) (fin l) = .ok (fin (Q l p)) := by
  have := invcdf_eval l 0 one_pos hp
  rwa [zero_add, one_mul] at this

theorem invcdf_std_closed (hl : 0 < l) (hp : p ∈ Icc (0:ℝ) 1) : invcdf (fin p) (fin l) = .ok (fin (Q l p)) := by
  have := invcdf_closed 0 hl one_pos hp
  rwa [zero_add, one_mul] at this

theorem invcdf_zero_neg (m : ℝ) (hl : l < 0) (hs : 0 < s) : invcdf (fin 0) (fin l) (fin m) (fin s) = .ok ninf := by
  simp [invcdf, validateP_ok, validate_ok l m hs, hl]
theorem invcdf_one_neg (m : ℝ) (hl : l < 0) (hs : 0 < s) : invcdf (fin 1) (fin l) (fin m) (fin s) = .ok pinf := by
  simp [invcdf, validateP_ok, validate_ok l m hs, hl]

theorem invcdf_nan (hl : l ≠ 0) : invcdf nan (fin l) = .ok nan := by
  have h1 : validateP nan = .ok nan := by simp [validateP]
  have h2 : (nan : Num) /. fin l = .ok nan := by simp [Num.div, hl]
  have h3 : mp.power nan (fin l) = .ok nan := by simp [mp.power]
  have h4 : mp.log1p (-nan) = .ok nan := by simp [mp.log1p, mp.log]
  have h5 : invStd nan (fin l) = .ok nan := by
    simp only [invStd, h3, h4, ok_bind, zero_def, fin_eq, hl, if_false]
    simp [mp.exp, h2]
  simp only [invcdf, h1, validate_std, ok_bind, h5]
  simp

/-! ### The initial bracket -/

theorem sign_neg {e : ℝ} (h : e < 0) : mp.sign (fin e) = fin (-1) := by simp [mp.sign, h, h.not_gt]
theorem sign_pos {e : ℝ} (h : 0 < e) : mp.sign (fin e) = fin 1 := by simp [mp.sign, h]
theorem sign_zero : mp.sign (fin 0) = fin 0 := by simp [mp.sign]

/-- `(λ z)^(1/λ)` -/
noncomputable def tail (l z : ℝ) : ℝ := (l * z) ^ (1 / l)

theorem tail_rpow (hl : l < 0) (hz : z < 0) : tail l z ^ l = l * z := by
  rw [tail, ← Real.rpow_mul (mul_pos_of_neg_of_neg hl hz).le, one_div_mul_cancel hl.ne, Real.rpow_one]

theorem half_eq (hl : l < 0) : ((1:ℝ) / 2) = ((2:ℝ) ^ (-l)) ^ (1 / l) := by
  rw [← Real.rpow_mul (by norm_num), neg_mul, mul_one_div_cancel hl.ne, Real.rpow_neg_one]; norm_num

theorem tail_lt_half (hl : l < 0) (hz : z < 2 ^ (-l) / l) : tail l z < 1 / 2 := by
  rw [half_eq hl, tail]
  exact Real.rpow_lt_rpow_of_neg (Real.rpow_pos_of_pos two_pos _) (by rw [lt_div_iff_of_neg hl] at hz; linarith) (by rw [one_div]; exact inv_neg''.2 hl)

theorem Q_tail (hl : l < 0) (hz : z < 0) : Q l (tail l z) = z - (1 - tail l z) ^ l / l := by
  rw [Q, if_neg hl.ne, tail_rpow hl hz, sub_div, mul_div_cancel_left₀ _ hl.ne]

theorem tail_gt (hl : l < 0) (hz : z < 2 ^ (-l) / l) : 0 < tail l z ∧ tail l z < 1 / 2 ∧ F l z < tail l z := by
  have h2 : (0:ℝ) < 2 ^ (-l) := Real.rpow_pos_of_pos two_pos _
  have hz0 : z < 0 := hz.trans (div_neg_of_pos_of_neg h2 hl)
  have h0 : 0 < tail l z := Real.rpow_pos_of_pos (mul_pos_of_neg_of_neg hl hz0) _
  have h1 := tail_lt_half hl hz
  refine ⟨h0, h1, ?_⟩
  have hm : tail l z ∈ Ioo (0:ℝ) 1 := ⟨h0, by linarith⟩
  rw [← F_Q (l := l) hm]
  refine F_strictMonoOn (by simp [S, hl.not_gt]) (Q_mem hm) ?_
  rw [Q_tail hl hz0]
  have : (1 - tail l z) ^ l / l < 0 := div_neg_of_pos_of_neg (Real.rpow_pos_of_pos (by linarith) _) hl
  linarith

/-- `1/2 + 2^λ z` -/
noncomputable def lin (l z : ℝ) : ℝ := 1 / 2 + 2 ^ l * z

theorem lin_lt (hl : l < 0) (hz : z < 0) (h : -2 ^ (-l - 1) ≤ z) : 0 ≤ lin l z ∧ lin l z < F l z := by
  have h2 : (0:ℝ) < 2 ^ l := Real.rpow_pos_of_pos two_pos _
  have h3 : (2:ℝ) ^ l * 2 ^ (-l - 1) = 1 / 2 := by
    rw [← Real.rpow_add two_pos, show l + (-l - 1) = -1 by ring, Real.rpow_neg_one]; norm_num
  have h0 : 0 ≤ lin l z := by
    have := mul_le_mul_of_nonneg_left h h2.le
    rw [mul_neg, h3] at this
    rw [lin]; linarith
  have hS : z ∈ S l := by simp [S, hl.not_gt]
  refine ⟨h0, ?_⟩
  rcases h0.eq_or_lt with e | hpos
  · rw [← e]; exact (F_spec hS).1.1
  have hhalf : lin l z < 1 / 2 := by rw [lin]; linarith [mul_neg_of_pos_of_neg h2 hz]
  have hm : lin l z ∈ Ioo (0:ℝ) 1 := ⟨hpos, by linarith⟩
  rw [← F_Q (l := l) hm]
  refine F_strictMonoOn (Q_mem hm) hS ?_
  have hsub : Icc (lin l z) (1 / 2) ⊆ Ioo 0 1 := fun x hx => ⟨hpos.trans_le hx.1, by linarith [hx.2]⟩
  obtain ⟨c, hc, e⟩ := exists_hasDerivAt_eq_slope (Q l) (q l) hhalf
    (fun x hx => (hasDerivAt_Q (hsub hx)).continuousAt.continuousWithinAt) (fun x hx => hasDerivAt_Q (hsub (Ioo_subset_Icc_self hx)))
  have hc1 := hsub (Ioo_subset_Icc_self hc)
  have hq : 2 ^ (1 - l) < q l c := by
    have a1 : (2:ℝ) ^ (1 - l) < c ^ (l - 1) := by
      rw [show (1 - l) = -(l - 1) by ring, Real.rpow_neg (by norm_num), ← Real.inv_rpow (by norm_num)]
      exact Real.rpow_lt_rpow_of_neg hc1.1 (by rw [← one_div]; exact hc.2) (by linarith)
    have a2 : 0 < (1 - c) ^ (l - 1) := Real.rpow_pos_of_pos (sub_pos.2 hc1.2) _
    rw [q]; linarith
  have hw : 0 < 1 / 2 - lin l z := by linarith
  rw [e, Q_half, lt_div_iff₀ hw] at hq
  have h4 : (2:ℝ) ^ (1 - l) * (1 / 2 - lin l z) = -(2 * z) := by
    rw [lin, sub_add_cancel_left, mul_neg, ← mul_assoc, ← Real.rpow_add two_pos, sub_add_cancel, Real.rpow_one]
  rw [h4] at hq
  linarith

theorem bracketNeg_eval (hl : l < 0) (z : ℝ) : bracketNeg (fin z) (fin l) (fin (1 / l)) =
    .ok (fin (if z < -2 ^ (-l - 1) then 0 else lin l z), fin (if z < 2 ^ (-l) / l then tail l z else 1 / 2)) := by
  have h2 : (0:ℝ) < 2 ^ (-l) := Real.rpow_pos_of_pos two_pos _
  have e1 : mp.power 2 (fin (-l)) = .ok (fin (2 ^ (-l))) := mp.power_pos two_pos _
  have e2 : mp.power 2 (fin (-l - 1)) = .ok (fin (2 ^ (-l - 1))) := mp.power_pos two_pos _
  have e3 : mp.power 2 (fin l) = .ok (fin (2 ^ l)) := mp.power_pos two_pos _
  have e4 : (1 : Num) /. 2 = .ok (fin (1 / 2)) := by rw [one_def, ofNat_def, fin_div _ two_ne_zero]
  by_cases c1 : z < 2 ^ (-l) / l
  · have hz0 : z < 0 := c1.trans (div_neg_of_pos_of_neg h2 hl)
    have e5 : mp.power (fin (l * z)) (fin (1 / l)) = .ok (fin (tail l z)) := mp.power_pos (mul_pos_of_neg_of_neg hl hz0) _
    by_cases c2 : z < -2 ^ (-l - 1) <;>
    simp only [bracketNeg, neg_fin, e1, ok_bind, fin_div _ hl.ne, fin_lt, c1, if_true, fin_mul, e5, one_def, fin_sub, e2, c2, if_false, pure_eq_ok,
      zero_def]
    rw [one_def] at e4
    simp only [e4, e3, ok_bind, fin_mul, fin_add, lin]
  · by_cases c2 : z < -2 ^ (-l - 1) <;>
    simp only [bracketNeg, neg_fin, e1, ok_bind, fin_div _ hl.ne, fin_lt, c1, if_true, fin_mul, one_def, fin_sub, e2, c2, if_false, pure_eq_ok,
      zero_def]
    rw [one_def] at e4
    simp only [e4, e3, ok_bind, fin_mul, fin_add, lin]

theorem bracketPos_eval (hl : l < 0) (z : ℝ) : bracketPos (fin z) (fin l) =
    .ok (fin (if -2 ^ (-l) / l < z then 1 - tail l (-z) else 1 / 2), fin (if 2 ^ (-l - 1) < z then 1 else 1 - lin l (-z))) := by
  have h2 : (0:ℝ) < 2 ^ (-l) := Real.rpow_pos_of_pos two_pos _
  have e1 : mp.power 2 (fin (-l)) = .ok (fin (2 ^ (-l))) := mp.power_pos two_pos _
  have e2 : mp.power 2 (fin (-l - 1)) = .ok (fin (2 ^ (-l - 1))) := mp.power_pos two_pos _
  have e3 : mp.power 2 (fin l) = .ok (fin (2 ^ l)) := mp.power_pos two_pos _
  have e4 : fin 1 /. 2 = .ok (fin (1 / 2)) := by rw [ofNat_def, fin_div _ two_ne_zero]
  have e6 : 1 / 2 + 2 ^ l * z = 1 - lin l (-z) := by rw [lin]; ring
  by_cases c1 : -2 ^ (-l) / l < z
  · have hz0 : 0 < z := (div_pos_of_neg_of_neg (neg_neg_of_pos h2) hl).trans c1
    have e5 : 0 < -l * z := mul_pos (neg_pos.2 hl) hz0
    have e7 : -(Real.exp (Real.log (-l * z) / l) - 1) = 1 - tail l (-z) := by
      rw [tail, mul_neg, ← neg_mul, Real.rpow_def_of_pos e5, mul_one_div]; ring
    by_cases c2 : 2 ^ (-l - 1) < z <;>
    simp only [bracketPos, neg_fin, e1, ok_bind, fin_div _ hl.ne, gt_iff, fin_lt, c1, if_true, fin_mul, mp.log_pos e5, mp.expm1_fin, e7, one_def,
      fin_sub, e2, c2, if_false, pure_eq_ok]
    simp only [e4, e3, ok_bind, fin_mul, fin_add, e6]
  · by_cases c2 : 2 ^ (-l - 1) < z <;>
    simp only [bracketPos, neg_fin, e1, ok_bind, fin_div _ hl.ne, gt_iff, fin_lt, c1, if_true, fin_mul, one_def, fin_sub, e2, c2, if_false, pure_eq_ok]
    simp only [e4, e3, ok_bind, fin_mul, fin_add, e6]

/-- The solution lies strictly inside the initial bracket. -/
theorem bracket_neg (hl : l < 0) (hz : z < 0) : ∃ a b, cdfSolverBracket (fin z) (fin l) = .ok (fin a, fin b) ∧
    0 ≤ a ∧ a < F l z ∧ F l z < b ∧ b ≤ 1 / 2 := by
  refine ⟨if z < -2 ^ (-l - 1) then 0 else lin l z, if z < 2 ^ (-l) / l then tail l z else 1 / 2, ?_, ?_⟩
  · simp only [cdfSolverBracket, one_def, fin_div _ hl.ne, ok_bind, zero_def, fin_lt, hl, hz, if_true, bracketNeg_eval hl]
  · have hS : z ∈ S l := by simp [S, hl.not_gt]
    have ha : 0 ≤ (if z < -2 ^ (-l - 1) then 0 else lin l z) ∧ (if z < -2 ^ (-l - 1) then 0 else lin l z) < F l z := by
      split_ifs with h
      · exact ⟨le_rfl, (F_spec hS).1.1⟩
      · exact lin_lt hl hz (not_lt.1 h)
    have hb : F l z < (if z < 2 ^ (-l) / l then tail l z else 1 / 2) ∧ (if z < 2 ^ (-l) / l then tail l z else 1 / 2) ≤ 1 / 2 := by
      split_ifs with h
      · exact ⟨(tail_gt hl h).2.2, (tail_gt hl h).2.1.le⟩
      · refine ⟨?_, le_rfl⟩
        rw [← F_zero l]
        exact F_strictMonoOn hS (by simp [S, hl.not_gt]) hz
    exact ⟨ha.1, ha.2, hb.1, hb.2⟩

theorem bracket_pos (hl : l < 0) (hz : 0 < z) : ∃ a b, cdfSolverBracket (fin z) (fin l) = .ok (fin a, fin b) ∧
    1 / 2 ≤ a ∧ a < F l z ∧ F l z < b ∧ b ≤ 1 := by
  refine ⟨if -2 ^ (-l) / l < z then 1 - tail l (-z) else 1 / 2, if 2 ^ (-l - 1) < z then 1 else 1 - lin l (-z), ?_, ?_⟩
  · simp only [cdfSolverBracket, one_def, fin_div _ hl.ne, ok_bind, zero_def, fin_lt, hl, hz.not_gt, if_true, if_false, bracketPos_eval hl]
  · have hS : z ∈ S l := by simp [S, hl.not_gt]
    have hF := F_neg l z
    have hb : F l z < (if 2 ^ (-l - 1) < z then 1 else 1 - lin l (-z)) ∧ (if 2 ^ (-l - 1) < z then 1 else 1 - lin l (-z)) ≤ 1 := by
      split_ifs with h
      · exact ⟨(F_spec hS).1.2, le_rfl⟩
      · have := lin_lt hl (neg_neg_of_pos hz) (by linarith)
        constructor <;> linarith [this.1, this.2]
    have ha : 1 / 2 ≤ (if -2 ^ (-l) / l < z then 1 - tail l (-z) else 1 / 2) ∧
        (if -2 ^ (-l) / l < z then 1 - tail l (-z) else 1 / 2) < F l z := by
      split_ifs with h
      · have := tail_gt (z := -z) hl (by rw [neg_div] at h; linarith)
        constructor <;> linarith [this.2.1, this.2.2]
      · refine ⟨le_rfl, ?_⟩
        rw [← F_zero l]
        exact F_strictMonoOn (by simp [S, hl.not_gt]) hS hz
    exact ⟨ha.1, ha.2, hb.1, hb.2⟩

end Mpsci.tukeylambda
