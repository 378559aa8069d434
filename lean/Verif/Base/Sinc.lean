import Verif.Base.Const
import Mathlib.Analysis.SpecialFunctions.Trigonometric.Sinc

/-! `mp.sinc` and `mp.sincpi`. -/

namespace Mpsci

open Num

/-- `mp.sinc(x)`: `sin(x)/x`, and 1 at 0. -/
noncomputable def mp.sinc : Num → Num
  | fin x => fin (Real.sinc x)
  | pinf => 0
  | ninf => 0
  | nan => nan

/-- `mp.sincpi(x)`: `sin(πx)/(πx)`, and 1 at 0. -/
noncomputable def mp.sincpi : Num → Num
  | fin x => fin (Real.sinc (Real.pi * x))
  | pinf => 0
  | ninf => 0
  | nan => nan

theorem mp.sinc_fin (x : ℝ) : mp.sinc (fin x) = fin (Real.sinc x) := rfl
theorem mp.sincpi_fin (x : ℝ) : mp.sincpi (fin x) = fin (Real.sinc (Real.pi * x)) := rfl

end Mpsci
