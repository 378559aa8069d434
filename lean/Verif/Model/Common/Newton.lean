import Verif.Base.Mp
import Verif.Base.Loop

/-!
# Newton iterations

The loop of `invgamma.invcdf` and `invgamma.invsf`.
-/

namespace Mpsci

open Classical Num

/-- `mp.almosteq(s, t)` (mpmath `ctx_base.py`) for finite numbers; `eps` is `2**(-mp.prec + 4)`, the default for both tolerances.
Other values do not occur here. -/
def mp.almosteqD (eps : ℝ) : Num → Num → Prop
  | fin s, fin t => |s - t| ≤ eps ∨ (if |s| < |t| then |s - t| / |t| else |s - t| / |s|) ≤ eps
  | _, _ => False

namespace common

/-- `while True: x1 = step(x0); if almosteq(x1, x0): break; x0 = x1`, then `return x1`. -/
noncomputable def newtonLoop (eps : ℝ) (fuel : ℕ) (step : Num → M Num) (x0 : Num) : M Num := do
  let x0 ← loop (fun x => do return ¬ mp.almosteqD eps (← step x) x) step fuel x0
  step x0

end common

end Mpsci
