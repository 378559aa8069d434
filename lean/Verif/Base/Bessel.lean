import Verif.Base.Mp
import Mathlib.MeasureTheory.Integral.IntervalIntegral.Basic
import Mathlib.Analysis.SpecialFunctions.Trigonometric.Basic

/-! The modified Bessel function of the first kind of natural order. -/

namespace Mpsci

open Classical Num

/-- `I_n(x)`, by Bessel's integral -/
noncomputable def besselI (n : ℕ) (x : ℝ) : ℝ :=
  (∫ θ in (0:ℝ)..Real.pi, Real.exp (x * Real.cos θ) * Real.cos (n * θ)) / Real.pi

/-- `mp.besseli(n, x)` for a natural `n` and a finite `x`; the infinities are not modelled. -/
noncomputable def mp.besseli (n : ℕ) : Num → M Num
  | fin x => .ok (fin (besselI n x))
  | nan => .ok nan
  | _ => .error .notModelled
@[simp] theorem mp.besseli_fin (n : ℕ) (x : ℝ) : mp.besseli n (fin x) = .ok (fin (besselI n x)) := rfl

end Mpsci
