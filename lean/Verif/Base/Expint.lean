import Verif.Base.Const
import Mathlib.MeasureTheory.Integral.Bochner.Set
import Mathlib.Analysis.Normed.Group.Tannery
import Mathlib.Data.Nat.Factorial.Basic

/-! The exponential integral `E₁` and the hypergeometric function `₃F₃(1,1,1; 2,2,2; z)`. -/

namespace Mpsci

open Classical Num MeasureTheory Set

/-- `E₁(x) = ∫ₓ^∞ e^{-t}/t dt` -/
noncomputable def e1R (x : ℝ) : ℝ := ∫ t in Ioi x, Real.exp (-t) / t

/-- `mp.e1(x)`, for `x > 0`. -/
noncomputable def mp.e1 : Num → M Num
  | fin x => if 0 < x then .ok (fin (e1R x)) else .error .notModelled
  | pinf => .ok 0
  | ninf => .error .notModelled
  | nan => .ok nan

theorem mp.e1_pos {x : ℝ} (h : 0 < x) : mp.e1 (fin x) = .ok (fin (e1R x)) := by simp only [mp.e1, h, if_true]

/-- `∑ (1)ₙ³/(2)ₙ³ zⁿ/n!`, the hypergeometric series with parameters 1, 1, 1; 2, 2, 2. -/
noncomputable def hyp3f3R (z : ℝ) : ℝ :=
  ∑' n : ℕ, ((Nat.ascFactorial 1 n : ℝ) ^ 3 / (Nat.ascFactorial 2 n : ℝ) ^ 3) * z ^ n / (n.factorial : ℝ)

/-- `mp.hyper([1, 1, 1], [2, 2, 2], z)` for finite `z`. -/
noncomputable def mp.hyp3f3 : Num → M Num
  | fin z => .ok (fin (hyp3f3R z))
  | _ => .error .notModelled

theorem mp.hyp3f3_fin (z : ℝ) : mp.hyp3f3 (fin z) = .ok (fin (hyp3f3R z)) := rfl

end Mpsci
