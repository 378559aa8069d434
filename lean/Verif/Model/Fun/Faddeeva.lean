import Mathlib.Analysis.SpecialFunctions.Exp
import Mathlib.MeasureTheory.Integral.IntervalIntegral.Basic
import Mathlib.Analysis.SpecialFunctions.Sqrt

/-! Model of `mpsci/fun/_faddeevaw.py`.  An mpc is a complex number. -/

namespace Mpsci

open Complex

/-- `mp.erfc(z)` for a complex number: one minus `2/√π` times the integral of `exp(-u²)` along the segment from 0 to `z` -/
noncomputable def mp.erfcC (z : ℂ) : ℂ := 1 - 2 / (√Real.pi : ℝ) * (z * ∫ t in (0:ℝ)..1, exp (-(t * z) ^ 2))

/-- `_faddeevaw.py` 4-29. -/
noncomputable def fun_.faddeevaw (z : ℂ) : ℂ := exp (-z ^ 2) * mp.erfcC (-I * z)

end Mpsci
