import Verif.Base.Mp
import Mathlib.Analysis.SpecialFunctions.ExpDeriv
import Mathlib.Analysis.Calculus.Deriv.MeanValue
import Mathlib.MeasureTheory.Integral.Bochner.Set
import Mathlib.Analysis.SpecialFunctions.Pow.Real

/-!
# Lambert's W and the exponential integral
-/

namespace Mpsci

open Classical Num Set

/-- `mp.lambertw(t)`, the principal branch: for real `t ≥ -1/e` the solution `w ≥ -1` of `w e^w = t`; complex for
smaller `t`. -/
noncomputable def mp.lambertw : Num → M Num
  | fin t => if h : ∃ w : ℝ, -1 ≤ w ∧ w * Real.exp w = t then .ok (fin h.choose) else .error .complexResult
  | pinf => .ok pinf
  | ninf => .error .complexResult
  | nan => .ok nan

theorem strictMonoOn_mul_exp : StrictMonoOn (fun w : ℝ => w * Real.exp w) (Ici (-1)) := by
  have hd : ∀ w : ℝ, HasDerivAt (fun w : ℝ => w * Real.exp w) ((1 + w) * Real.exp w) w := fun w => by
    refine ((hasDerivAt_id' w).mul (Real.hasDerivAt_exp w)).congr_deriv ?_; ring
  refine strictMonoOn_of_deriv_pos (convex_Ici _) (fun x _ => (hd x).continuousAt.continuousWithinAt) fun w hw => ?_
  rw [interior_Ici] at hw
  have : -1 < w := hw
  rw [(hd w).deriv]; exact mul_pos (by linarith) (Real.exp_pos w)

theorem mp.lambertw_eval {w : ℝ} (hw : -1 ≤ w) : mp.lambertw (fin (w * Real.exp w)) = .ok (fin w) := by
  have h : ∃ v : ℝ, -1 ≤ v ∧ v * Real.exp v = w * Real.exp w := ⟨w, hw, rfl⟩
  rw [mp.lambertw, dif_pos h]
  congr 2
  exact strictMonoOn_mul_exp.injOn (mem_Ici.2 h.choose_spec.1) (mem_Ici.2 hw) h.choose_spec.2

/-- The generalised exponential integral `E_n(z)`. -/
noncomputable def expintR (n z : ℝ) : ℝ := ∫ t in Ioi (1:ℝ), t ^ (-n) * Real.exp (-(z * t))

/-- `mp.expint(n, z)` for real `n` and `z > 0`. -/
noncomputable def mp.expint : Num → Num → M Num
  | fin n, fin z => if 0 < z then .ok (fin (expintR n z)) else .error .notModelled
  | _, _ => .error .notModelled
theorem mp.expint_fin {z : ℝ} (n : ℝ) (hz : 0 < z) : mp.expint (fin n) (fin z) = .ok (fin (expintR n z)) := by
  simp [mp.expint, hz]

end Mpsci
