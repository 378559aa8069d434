import Verif.Base.Mp
import Mathlib.NumberTheory.Harmonic.EulerMascheroni
import Mathlib.Analysis.PSeries

/-! Constants of `mpmath`. -/

namespace Mpsci.mp

open Num

/-- `mp.euler`. -/
noncomputable def euler : Num := fin Real.eulerMascheroniConstant
@[simp] theorem euler_def : euler = fin Real.eulerMascheroniConstant := rfl

/-- `mp.zeta(n)` for an integer `n > 1`. -/
noncomputable def zeta (n : ℕ) : Num := fin (∑' k : ℕ, 1 / ((k:ℝ) + 1) ^ n)

end Mpsci.mp
