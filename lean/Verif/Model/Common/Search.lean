import Verif.Model.Common.Bracket

/-!
# Quantile functions by bracket search and root finding

`findroot` is `mp.findroot` with the solver the caller names.
-/

namespace Mpsci.common

open Classical Num

/-- The last lines of the quantile functions that search with a secant method: `gamma.py` lines 96–102 and 129–135,
`betaprime.py` lines 161–166 and 181–186. -/
noncomputable def bracketRoot (findroot : (Num → M Num) → Num → Num → M Num) (fuel : ℕ) (func : Num → M Num)
    (p a b : Num) (nbisect : Option ℕ := none) : M Num := do
  let (x0, x1) ← findBracket fuel func p a b nbisect
  if x0 =. x1 then return x0
  findroot (fun x => do return (← func x) - p) x0 x1

/-- The same without the test `x0 == x1`: `nakagami.py` lines 91–92 and 120–121, `loggamma.py` lines 94–95. -/
noncomputable def bracketRootAlways (findroot : (Num → M Num) → Num → Num → M Num) (fuel : ℕ) (func : Num → M Num)
    (p a b : Num) (nbisect : Option ℕ := none) : M Num := do
  let (x0, x1) ← findBracket fuel func p a b nbisect
  findroot (fun x => do return (← func x) - p) x0 x1

/-- `_generic_inv(func, p, direction, solver='bisect')`, `_common.py` lines 264–301, with the default solver
(`maxsteps` is not modelled). -/
noncomputable def genericInv (findroot : (Num → M Num) → Num → Num → M Num) (fuel : ℕ) (func : Num → M Num)
    (p : Num) (direction : ℤ) : M Num := do
  let (kLow, kHigh) ← expand0Inf fuel func p direction
  findroot (fun k => do return (← func k) - p) kLow kHigh

end Mpsci.common
