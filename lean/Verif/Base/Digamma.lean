import Verif.Base.Mp
import Mathlib.Analysis.SpecialFunctions.Gamma.Deriv
import Mathlib.Analysis.SpecialFunctions.Log.Deriv
import Mathlib.Analysis.Calculus.LogDeriv

/-! The digamma function. -/

namespace Mpsci

open Classical Num

/-- The logarithmic derivative of the gamma function. -/
noncomputable def psi (x : ℝ) : ℝ := deriv Real.Gamma x / Real.Gamma x

namespace mp

/-- `mp.digamma`; mpmath raises ValueError at the poles. -/
noncomputable def digamma : Num → M Num
  | fin x => if ∃ n : ℕ, x = -n then .error .valueError else .ok (fin (psi x))
  | pinf => .ok pinf
  | _ => .ok nan

theorem digamma_pos {x : ℝ} (h : 0 < x) : digamma (fin x) = .ok (fin (psi x)) := by
  have : ¬ ∃ n : ℕ, x = -n := by
    rintro ⟨n, rfl⟩
    have : (0:ℝ) ≤ n := n.cast_nonneg
    linarith
  simp only [digamma, this, if_false]

end mp

theorem differentiableAt_Gamma {x : ℝ} (h : 0 < x) : DifferentiableAt ℝ Real.Gamma x :=
  Real.differentiableAt_Gamma fun n => by have : (0:ℝ) ≤ n := n.cast_nonneg; linarith

theorem hasDerivAt_logGamma {x : ℝ} (h : 0 < x) : HasDerivAt (fun x => Real.log (Real.Gamma x)) (psi x) x :=
  (differentiableAt_Gamma h).hasDerivAt.log (Real.Gamma_pos_of_pos h).ne'

theorem psi_add_one {x : ℝ} (h : 0 < x) : psi (x + 1) = psi x + 1 / x := by
  have h1 : HasDerivAt (fun x => Real.log (Real.Gamma (x + 1))) (psi (x + 1)) x :=
    (hasDerivAt_logGamma (by linarith : 0 < x + 1)).comp_add_const x 1
  have h2 : HasDerivAt (fun x => Real.log x + Real.log (Real.Gamma x)) (x⁻¹ + psi x) x :=
    (Real.hasDerivAt_log h.ne').add (hasDerivAt_logGamma h)
  have h3 : (fun x => Real.log (Real.Gamma (x + 1))) =ᶠ[nhds x] fun x => Real.log x + Real.log (Real.Gamma x) := by
    filter_upwards [lt_mem_nhds h] with t ht
    rw [Real.Gamma_add_one ht.ne', Real.log_mul ht.ne' (Real.Gamma_pos_of_pos ht).ne']
  rw [h1.unique (h2.congr_of_eventuallyEq h3)]; ring

/-- `psi (x + n) - psi x` is a finite sum. -/
theorem psi_add_nat {x : ℝ} (h : 0 < x) (n : ℕ) : psi (x + n) - psi x = ∑ j ∈ Finset.range n, 1 / (x + j) := by
  induction n with
  | zero => simp
  | succ n ih =>
    rw [Finset.sum_range_succ, ← ih, Nat.cast_succ, ← add_assoc, psi_add_one (by positivity)]; ring

/-- `psi` differences over integer steps decrease. -/
theorem psi_diff_anti {x y : ℝ} (h : 0 < x) (hxy : x ≤ y) (n : ℕ) : psi (y + n) - psi y ≤ psi (x + n) - psi x := by
  rw [psi_add_nat h, psi_add_nat (h.trans_le hxy)]
  exact Finset.sum_le_sum fun j _ => one_div_le_one_div_of_le (by positivity) (by linarith)

end Mpsci
