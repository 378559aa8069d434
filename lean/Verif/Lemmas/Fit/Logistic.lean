import Verif.Lemmas.Fit.Gumbel
import Verif.Lemmas.Dist.Logistic
import Mathlib.Analysis.SpecialFunctions.Trigonometric.DerivHyp

/-! Likelihood of the logistic distribution. -/

namespace Mpsci.logistic

open Classical Num Spec common

variable {xs : List ℝ} {loc s : ℝ}

noncomputable def phi (z : ℝ) : ℝ := Real.log 4 + 2 * Real.log (Real.cosh (z / 2))

theorem phi_deriv (z : ℝ) : HasDerivAt phi (Real.tanh (z / 2)) z := by
  have h1 : HasDerivAt (fun z : ℝ => z / 2) (1 / 2) z := (hasDerivAt_id z).div_const 2
  have h2 := (h1.cosh).log (Real.cosh_pos (z / 2)).ne'
  refine ((h2.const_mul 2).const_add (Real.log 4)).congr_deriv ?_
  rw [Real.tanh_eq_sinh_div_cosh]
  field_simp

theorem tanh_mono : Monotone Real.tanh := fun a b h => by
  rw [Real.tanh_eq_sinh_div_cosh, Real.tanh_eq_sinh_div_cosh, div_le_div_iff₀ (Real.cosh_pos _) (Real.cosh_pos _)]
  have := Real.sinh_nonneg_iff.2 (sub_nonneg.2 h)
  rw [Real.sinh_sub] at this
  linarith

theorem phi_tangent (z z' : ℝ) : phi z + Real.tanh (z / 2) * (z' - z) ≤ phi z' :=
  tangent_le (φ' := fun z => Real.tanh (z / 2)) phi_deriv (fun a b h => tanh_mono (by linarith)) z z'

theorem nll_eval (hs : 0 < s) (xs : List ℝ) : nll (xs.map fin) (fin loc) (fin s) =
    .ok (fin ((xs.map fun x => Real.log s + phi ((x - loc) / s)).sum)) := by
  have h2s : (2 * s : ℝ) ≠ 0 := by positivity
  have e1 : (xs.map fin).mapM (fun t => do mp.log (mp.sech (← (t - fin loc) /. fin (2 * s)))) =
      .ok ((xs.map fun x => -Real.log (Real.cosh ((x - loc) / s / 2))).map fin) :=
    mapM_comp_fin fun x _ => by
      have h : 0 < 1 / Real.cosh ((x - loc) / (2 * s)) := by have := Real.cosh_pos ((x - loc) / (2 * s)); positivity
      rw [fin_sub, fin_div _ h2s, ok_bind, mp.sech_fin, mp.log_pos h]
      rw [one_div, Real.log_inv, div_div, mul_comm s]
  have h4 : (0:ℝ) < 4 * s := by positivity
  simp only [nll, validateLocScale_ok _ hs, ok_bind, ofNat_def, fin_mul, e1, stats.len, List.length_map,
    mp.log_pos h4, mp.fsum_fin, fin_sub, pure_eq_ok]
  congr 2
  have e2 : ∀ x : ℝ, Real.log s + phi ((x - loc) / s) =
      (Real.log s + Real.log 4) + (-2) * -Real.log (Real.cosh ((x - loc) / s / 2)) := fun x => by rw [phi]; ring
  rw [List.map_congr_left fun x _ => e2 x, sum_map_affine, Real.log_mul (by norm_num) hs.ne']
  ring

theorem log_f (hs : 0 < s) (z : ℝ) : Real.log (f z / s) = -(Real.log s + phi z) := by
  have h1 : f z = 1 / (4 * Real.cosh (z / 2) ^ 2) := by
    have e1 : Real.exp (-z) = Real.exp (-(z / 2)) ^ 2 := by rw [← Real.exp_nat_mul]; congr 1; push_cast; ring
    have e2 : Real.exp (z / 2) = (Real.exp (-(z / 2)))⁻¹ := by rw [Real.exp_neg, inv_inv]
    rw [f, Real.cosh_eq, e1, e2]
    have := Real.exp_pos (-(z / 2))
    field_simp
    ring
  have hc := Real.cosh_pos (z / 2)
  rw [h1, Real.log_div (by positivity) hs.ne', one_div, Real.log_inv, Real.log_mul (by norm_num) (by positivity),
    Real.log_pow, phi]
  push_cast; ring

theorem locEq_eval (hs : s ≠ 0) : mleLocEq (fin loc) (fin s) (xs.map fin) =
    .ok (fin (xs.map fun x => Real.tanh ((x - loc) / s / 2)).sum) := by
  have h2s : (2 * s : ℝ) ≠ 0 := by positivity
  have e1 : (xs.map fin).mapM (fun t => do return mp.tanh (← (t - fin loc) /. fin (2 * s))) =
      .ok ((xs.map fun x => Real.tanh ((x - loc) / s / 2)).map fin) :=
    mapM_comp_fin fun x _ => by
      rw [fin_sub, fin_div _ h2s, ok_bind, mp.tanh_fin, div_div, mul_comm s]; rfl
  rw [mleLocEq, ofNat_def, fin_mul, e1, ok_bind, mp.fsum_fin]; rfl

theorem scaleEq_eval (hs : s ≠ 0) : mleScaleEq (fin loc) (fin s) (xs.map fin) =
    .ok (fin (-xs.length + (xs.map fun x => x * Real.tanh ((x - loc) / s / 2)).sum / s)) := by
  have h2s : (2 * s : ℝ) ≠ 0 := by positivity
  have e1 : (xs.map fin).mapM (fun t => do return t * mp.tanh (← (t - fin loc) /. fin (2 * s))) =
      .ok ((xs.map fun x => x * Real.tanh ((x - loc) / s / 2)).map fin) :=
    mapM_comp_fin fun x _ => by
      rw [fin_sub, fin_div _ h2s, ok_bind, mp.tanh_fin, div_div, mul_comm s, fin_mul]; rfl
  rw [mleScaleEq, ofNat_def, fin_mul, e1, ok_bind, mp.fsum_fin, fin_div _ hs, ok_bind]
  simp [stats.len]

end Mpsci.logistic
