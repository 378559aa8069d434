import Verif.Base.Mp
import Mathlib.Analysis.SpecialFunctions.Gamma.Beta
import Mathlib.MeasureTheory.Integral.IntervalIntegral.FundThmCalculus

/-! `mp.hyp2f1`, Gauss' hypergeometric function. -/

namespace Mpsci

open Classical Num

/-- Euler's integral for Gauss' hypergeometric function `2F1(a, b; c; z)`, valid for `0 < a < c` and `z < 1`. -/
noncomputable def eulerInt (a b c z : ℝ) : ℝ :=
  Real.Gamma c / (Real.Gamma a * Real.Gamma (c - a)) * ∫ t in (0:ℝ)..1, t ^ (a - 1) * (1 - t) ^ (c - a - 1) * (1 - z * t) ^ (-b)

/-- `mp.hyp2f1(a, b, c, z)` for `0 < a < c` and real `z < 1`, by Euler's integral. -/
noncomputable def mp.hyp2f1 : Num → Num → Num → Num → M Num
  | fin a, fin b, fin c, fin z => if 0 < a ∧ a < c ∧ z < 1 then .ok (fin (eulerInt a b c z)) else .error .notModelled
  | _, _, _, _ => .error .notModelled

theorem mp.hyp2f1_fin {a c z : ℝ} (ha : 0 < a) (hc : a < c) (hz : z < 1) (b : ℝ) :
    mp.hyp2f1 (fin a) (fin b) (fin c) (fin z) = .ok (fin (eulerInt a b c z)) := by
  simp only [mp.hyp2f1, ha, hc, hz, and_self, if_true]

end Mpsci
