import Verif.Model.Dist.StudentT
import Verif.Lemmas.StudentDist
import Verif.Lemmas.Dist.Chi
import Verif.Lemmas.Common
import Verif.Props.Common.Bracket

namespace Mpsci.studentt

open Classical Num common Filter Topology Set

variable {v : ℝ}

theorem validate_ok (hv : 0 < v) : validateDf (fin v) = .ok (fin v) := by simp [validateDf, hv.not_ge]
theorem validate_bad (h : ¬ 0 < v) : validateDf (fin v) = .error .valueError := by simp [validateDf, not_lt.1 h]

theorem mid_eval (hv : 0 < v) (x : ℝ) :
    x * Real.Gamma ((v + 1) / 2) * eulerInt (1 / 2) ((v + 1) / 2) (3 * (1 / 2)) (-x ^ 2 / v) / √(Real.pi * v) / Real.Gamma (v / 2) =
      tD.F v x - 1 / 2 := by
  rw [tD.F, ← tD.F_euler hv, tD.C_eq hv, show (3:ℝ) * (1 / 2) = 3 / 2 by norm_num]; ring

theorem cdf_eval (hv : 0 < v) (x : ℝ) : cdf (fin x) (fin v) = .ok (fin (tD.F v x)) := by
  have h1 : 0 < (v + 1) / 2 := by linarith
  have h2 : 0 < v / 2 := by linarith
  have h3 : -x ^ 2 / v < 1 := by
    have : 0 ≤ x ^ 2 / v := by positivity
    rw [neg_div]; linarith
  have h4 : 0 < Real.pi * v := mul_pos Real.pi_pos hv
  have h5 : 1 / 2 < 3 * ((1:ℝ) / 2) := by norm_num
  have := mid_eval hv x
  simp only [cdf, validate_ok hv, ok_bind, fin_eq_ninf, fin_eq_pinf, if_false, one_def, ofNat_def, fin_div _ two_ne_zero, fin_add,
    mp.gamma_pos h1, mp.gamma_pos h2, fin_mul, mp.ipow_fin, neg_fin, fin_div _ hv.ne', mp.hyp2f1_fin one_half_pos h5 h3, mp.pi_def,
    mp.sqrt_nonneg h4.le, fin_div _ (Real.sqrt_pos.2 h4).ne', fin_div _ (Real.Gamma_pos_of_pos h2).ne', pure_eq_ok, this]
  congr 2; ring

theorem sf_eval (hv : 0 < v) (x : ℝ) : sf (fin x) (fin v) = .ok (fin (1 - tD.F v x)) := by
  have h1 : 0 < (v + 1) / 2 := by linarith
  have h2 : 0 < v / 2 := by linarith
  have h3 : -x ^ 2 / v < 1 := by
    have : 0 ≤ x ^ 2 / v := by positivity
    rw [neg_div]; linarith
  have h4 : 0 < Real.pi * v := mul_pos Real.pi_pos hv
  have h5 : 1 / 2 < 3 * ((1:ℝ) / 2) := by norm_num
  have := mid_eval hv x
  simp only [sf, validate_ok hv, ok_bind, fin_eq_ninf, fin_eq_pinf, if_false, one_def, ofNat_def, fin_div _ two_ne_zero, fin_add,
    mp.gamma_pos h1, mp.gamma_pos h2, fin_mul, mp.ipow_fin, neg_fin, fin_div _ hv.ne', mp.hyp2f1_fin one_half_pos h5 h3, mp.pi_def,
    mp.sqrt_nonneg h4.le, fin_div _ (Real.sqrt_pos.2 h4).ne', fin_div _ (Real.Gamma_pos_of_pos h2).ne', pure_eq_ok, this, fin_sub]
  congr 2; ring

theorem log_f (hv : 0 < v) (x : ℝ) : Real.log (tD.f v x) =
    Real.log (Real.Gamma ((v + 1) / 2)) - Real.log (v * Real.pi) / 2 - Real.log (Real.Gamma (v / 2)) - (v + 1) / 2 * Real.log (1 + x ^ 2 / v) := by
  have h1 := Real.Gamma_pos_of_pos (by linarith : 0 < (v + 1) / 2)
  have h2 := Real.Gamma_pos_of_pos (by linarith : 0 < v / 2)
  have h4 : 0 < Real.pi * v := mul_pos Real.pi_pos hv
  have h5 := Real.sqrt_pos.2 h4
  rw [tD.f, Real.log_mul (tD.C_pos hv).ne' (tD.w_pos hv x).ne', tD.C_eq hv, Real.log_div (by positivity) h2.ne', Real.log_div h1.ne' h5.ne',
    Real.log_sqrt h4.le, tD.w, Real.log_rpow (tD.base_pos hv x), mul_comm Real.pi v]
  ring

theorem logpdf_eval (hv : 0 < v) (x : ℝ) : logpdf (fin x) (fin v) = .ok (fin (Real.log (tD.f v x))) := by
  have h1 : 0 < (v + 1) / 2 := by linarith
  have h2 : 0 < v / 2 := by linarith
  have h3 : -1 < x ^ 2 / v := by
    have : 0 ≤ x ^ 2 / v := by positivity
    linarith
  have h4 : 0 < v * Real.pi := mul_pos hv Real.pi_pos
  rw [log_f hv]
  simp only [logpdf, validate_ok hv, ok_bind, one_def, ofNat_def, fin_add, fin_div _ two_ne_zero, mp.loggamma_pos h1, mp.loggamma_pos h2,
    mp.pi_def, fin_mul, mp.log_pos h4, mp.ipow_fin, fin_div _ hv.ne', mp.log1p_pos h3, fin_sub, pure_eq_ok]

theorem pdf_eval (hv : 0 < v) (x : ℝ) : pdf (fin x) (fin v) = .ok (fin (tD.f v x)) := by
  simp only [pdf, validate_ok hv, ok_bind, logpdf_eval hv, mp.exp_fin, Real.exp_log (tD.f_pos hv x), pure_eq_ok]

theorem entropy_eval (hv : 0 < v) : entropy (fin v) =
    .ok (fin ((v + 1) / 2 * (psi ((v + 1) / 2) - psi (v / 2)) + Real.log (√v * betaFn (v / 2) (1 / 2)))) := by
  have h1 : 0 < (v + 1) / 2 := by linarith
  have h2 : 0 < v / 2 := by linarith
  have h3 : 0 < √v * betaFn (v / 2) (1 / 2) := mul_pos (Real.sqrt_pos.2 hv) (betaFn_pos h2 one_half_pos)
  simp only [entropy, validate_ok hv, ok_bind, one_def, ofNat_def, fin_add, fin_div _ two_ne_zero, mp.digamma_pos h1, mp.digamma_pos h2,
    mp.sqrt_nonneg hv.le, mp.beta_fin h2 one_half_pos, fin_mul, mp.log_pos h3, fin_sub, pure_eq_ok]

theorem cdf_ninf (hv : 0 < v) : cdf ninf (fin v) = .ok (fin 0) := by simp [cdf, validate_ok hv]
theorem cdf_pinf (hv : 0 < v) : cdf pinf (fin v) = .ok (fin 1) := by simp [cdf, validate_ok hv]

theorem F_mem (hv : 0 < v) (x : ℝ) : 0 < tD.F v x ∧ tD.F v x < 1 := by
  constructor
  · exact ((tD.isDist hv).nonneg (x - 1)).trans_lt (tD.F_strictMono hv (by linarith))
  · exact (tD.F_strictMono hv (by linarith : x < x + 1)).trans_le ((tD.isDist hv).le_one _)

variable {findroot : (Num → M Num) → Num → Num → M Num}

/-- What the bracket search followed by the root finder gives. -/
theorem search (hr : Spec.RootFinder findroot) (hv : 0 < v) (x : ℝ) :
    ∃ N lo hi : ℝ, ∃ K : ℕ, (∀ fuel ≥ K, findBracket fuel (fun x => cdf x (fin v)) (fin (tD.F v x)) ninf pinf = .ok (fin lo, fin hi)) ∧
      (lo = hi → lo = x) ∧ (lo ≠ hi → findroot (fun y => do return (← cdf y (fin v)) - fin (tD.F v x)) (fin lo) (fin hi) = .ok (fin x)) := by
  obtain ⟨lo, hi, K, -, -, h1, h2, -, h3⟩ := findBracket_mono (func := fun x => cdf x (fin v)) (g := tD.F v) (a := ninf) (b := pinf)
    (pa := 0) (pb := 1) (x := x) (p := tD.F v x) (by simp) (fun t _ => cdf_eval hv t) (cdf_ninf hv) (cdf_pinf hv)
    ((tD.F_strictMono hv).strictMonoOn _) (fun t _ => (F_mem hv t).1.le) (fun t _ => (F_mem hv t).2.le) (by simp [Spec.dom]) rfl none
  refine ⟨0, lo, hi, K, h3, fun h => by linarith, fun h => ?_⟩
  have hlt : lo < hi := lt_of_le_of_ne (h1.trans h2) h
  obtain ⟨r, -, h5, h6⟩ := hr.up (fun y => do return (← cdf y (fin v)) - fin (tD.F v x)) (fun y => tD.F v y - tD.F v x) lo hi hlt
    (fun y _ => by simp only [cdf_eval hv, ok_bind, fin_sub, pure_eq_ok])
    ((tD.isDist hv).cont.sub continuous_const).continuousOn (by simpa using (tD.isDist hv).mono h1) (by simpa using (tD.isDist hv).mono h2)
  rw [h5, (tD.F_strictMono hv).injective (sub_eq_zero.1 h6)]

theorem invcdf_lower (hr : Spec.RootFinder findroot) (hv : 0 < v) {x : ℝ} (hx : x ≤ 0) :
    Spec.Reaches (fun fuel => invcdf findroot fuel (fin (tD.F v x)) (fin v)) (fin x) := by
  obtain ⟨-, lo, hi, K, h1, h2, h3⟩ := search hr hv x
  obtain ⟨h4, h5⟩ := F_mem hv x
  have h6 : tD.F v x ≤ 1 / 2 := by rw [← tD.F_zero (v := v)]; exact (tD.isDist hv).mono hx
  refine ⟨K, fun fuel hK => ?_⟩
  simp only [invcdf, validate_ok hv, validateP_ok h4.le h5.le, ok_bind, zero_def, one_def, fin_eq, h4.ne', h5.ne, if_false, gt_iff, fin_lt,
    h6.not_gt, h1 fuel hK]
  split_ifs with h
  · rw [h2 h]; rfl
  · rw [h3 h]; rfl

theorem invcdf_upper (hr : Spec.RootFinder findroot) (hv : 0 < v) {x : ℝ} (hx : 0 < x) :
    Spec.Reaches (fun fuel => invcdf findroot fuel (fin (tD.F v x)) (fin v)) (fin x) ∨
    Spec.Reaches (fun fuel => invcdf findroot fuel (fin (tD.F v x)) (fin v)) (fin (-x)) := by
  obtain ⟨-, lo, hi, K, h1, h2, h3⟩ := search hr hv (-x)
  obtain ⟨h4, h5⟩ := F_mem hv x
  have h6 : 1 / 2 < tD.F v x := by rw [← tD.F_zero (v := v)]; exact tD.F_strictMono hv hx
  rw [tD.F_neg] at h1 h3
  have key : ∀ fuel ≥ K, invcdf findroot fuel (fin (tD.F v x)) (fin v) = .ok (if lo = hi then fin (-x) else fin x) := by
    intro fuel hK
    simp only [invcdf, validate_ok hv, validateP_ok h4.le h5.le, ok_bind, zero_def, one_def, fin_eq, h4.ne', h5.ne, if_false, gt_iff, fin_lt,
      h6, if_true, fin_sub, h1 fuel hK]
    split_ifs with h
    · rw [h2 h]; rfl
    · rw [h3 h]; simp
  by_cases h : lo = hi
  · exact Or.inr ⟨K, fun fuel hK => by simp only [key fuel hK, if_pos h]⟩
  · exact Or.inl ⟨K, fun fuel hK => by simp only [key fuel hK, if_neg h]⟩

/-- The search started for the quantile at `1/2` hits `-1/2`. -/
theorem bracket_half (hv : 0 < v) (n : ℕ) :
    findBracket (n + 1) (fun x => cdf x (fin v)) (fin (tD.F v (-(1 / 2)))) ninf pinf = .ok (fin (-(1 / 2)), fin (-(1 / 2))) := by
  have hm := tD.F_strictMono hv
  obtain ⟨h0, h1⟩ := F_mem hv (-(1 / 2))
  have a1 : tD.F v (-1) < tD.F v (-(1 / 2)) := hm (by norm_num)
  have a2 : tD.F v (-(1 / 2)) < tD.F v 1 := hm (by norm_num)
  have a3 : tD.F v (-(1 / 2)) < tD.F v 0 := hm (by norm_num)
  have s1 : mp.sign (fin (1 - 0)) = fin 1 := by simp [mp.sign]
  have sp : ∀ d : ℝ, 0 < d → mp.sign (fin d) = fin 1 := fun d h => by simp [mp.sign, h]
  have sn : ∀ d : ℝ, d < 0 → mp.sign (fin d) = fin (-1) := fun d h => by simp [mp.sign, h, h.le]
  have s2 := sp _ (sub_pos.2 a1)
  have s3 := sn _ (sub_neg.2 a2)
  have s4 := sn _ (sub_neg.2 a3)
  have e1 : ((-1:ℝ) + 1) / 2 = 0 := by norm_num
  have e2 : ((-1:ℝ) + 0) / 2 = -(1 / 2) := by norm_num
  have n1 : ¬ ((-1:ℝ) = 1) := by norm_num
  have b1 : startBracket (n + 1) (fun x => cdf x (fin v)) (fin (tD.F v (-(1 / 2)))) (fin 1) ninf pinf = .ok (fin (-1), fin 1) := by
    simp only [startBracket, ninf_eq_ninf, pinf_eq_pinf, and_self, if_true, loop, one_def, neg_fin, cdf_eval hv, ok_bind, fin_sub, s2, s3,
      fin_eq, not_true, if_false, pure_eq_ok, n1]
  have b2 : bisectSteps (fun x => cdf x (fin v)) (fin (tD.F v (-(1 / 2)))) (fin 1) (6 + 1) (fin (-1)) (fin 0) =
      .ok (fin (-(1 / 2)), fin (-(1 / 2))) := by
    rw [bisectSteps]
    simp only [fin_add, ofNat_def, fin_div _ (two_ne_zero (α := ℝ)), ok_bind, e2, cdf_eval hv, fin_eq, if_true, pure_eq_ok]
  have b3 : bisectSteps (fun x => cdf x (fin v)) (fin (tD.F v (-(1 / 2)))) (fin 1) (7 + 1) (fin (-1)) (fin 1) =
      .ok (fin (-(1 / 2)), fin (-(1 / 2))) := by
    rw [bisectSteps, ← b2]
    simp only [fin_add, ofNat_def, fin_div _ (two_ne_zero (α := ℝ)), ok_bind, e1, cdf_eval hv, fin_eq, a3.ne', if_false, fin_sub, s4, n1]
  simp only [findBracket, cdf_ninf hv, cdf_pinf hv, ok_bind, fin_eq, h0.ne', h1.ne, if_false, fin_sub, s1, b1, Option.getD_none]
  exact b3

theorem invcdf_half (hv : 0 < v) (n : ℕ) : invcdf findroot (n + 1) (fin (tD.F v (1 / 2))) (fin v) = .ok (fin (-(1 / 2))) := by
  obtain ⟨h4, h5⟩ := F_mem hv (1 / 2)
  have h6 : 1 / 2 < tD.F v (1 / 2) := by
    have := tD.F_strictMono hv (show (0:ℝ) < 1 / 2 by norm_num)
    rwa [tD.F_zero] at this
  have := bracket_half hv n
  rw [tD.F_neg] at this
  simp only [invcdf, validate_ok hv, validateP_ok h4.le h5.le, ok_bind, zero_def, one_def, fin_eq, h4.ne', h5.ne, if_false, gt_iff, fin_lt,
    h6, if_true, fin_sub, this, pure_eq_ok]

end Mpsci.studentt
