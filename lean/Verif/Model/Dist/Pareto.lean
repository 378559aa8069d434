import Verif.Model.Common
import Verif.Model.Fun.Powm1

/-! Model of `mpsci/distributions/pareto.py`. -/

namespace Mpsci.pareto

open Classical Num common

/-- `pareto.py` 24-29. -/
noncomputable def validateParams (b loc scale : Num) : M (Num × Num × Num) :=
  if b ≤ 0 then .error .valueError
  else if scale ≤ 0 then .error .valueError
  else .ok (b, loc, scale)

/-- `pareto.py` 32-44. -/
noncomputable def pdf (x b : Num) (loc : Num := 0) (scale : Num := 1) : M Num := do
  let (b, loc, scale) ← validateParams b loc scale
  let lb := loc + scale
  if x < lb then
    return 0
  else
    let z ← (x - loc) /. scale
    b * (← mp.power z (-b - 1)) /. scale

/-- `pareto.py` 47-59. -/
noncomputable def logpdf (x b : Num) (loc : Num := 0) (scale : Num := 1) : M Num := do
  let (b, loc, scale) ← validateParams b loc scale
  let lb := loc + scale
  if x < lb then
    return ninf
  else
    return (← mp.log b) - (b + 1) * (← mp.log (x - loc)) + b * (← mp.log scale)

/-- `pareto.py` 62-74. -/
noncomputable def cdf (x b : Num) (loc : Num := 0) (scale : Num := 1) : M Num := do
  let (b, loc, scale) ← validateParams b loc scale
  let lb := loc + scale
  if x < lb then
    return 0
  else
    let z ← (x - loc) /. scale
    return -(← mp.powm1 z (-b))

/-- `pareto.py` 77-85. -/
noncomputable def invcdf (p b : Num) (loc : Num := 0) (scale : Num := 1) : M Num := do
  let (b, loc, scale) ← validateParams b loc scale
  let p ← validateP p
  return loc + scale * (← fun_.invPowm1 (-p) (-b))

/-- `pareto.py` 88-100. -/
noncomputable def sf (x b : Num) (loc : Num := 0) (scale : Num := 1) : M Num := do
  let (b, loc, scale) ← validateParams b loc scale
  let lb := loc + scale
  if x < lb then
    return 1
  else
    let z ← (x - loc) /. scale
    mp.power z (-b)

/-- `pareto.py` 103-111. -/
noncomputable def invsf (p b : Num) (loc : Num := 0) (scale : Num := 1) : M Num := do
  let (b, loc, scale) ← validateParams b loc scale
  let p ← validateP p
  return loc + scale * (← mp.power p (← fin (-1) /. b))

/-- `pareto.py` 114-121. -/
noncomputable def support (b : Num) (loc : Num := 0) (scale : Num := 1) : M (Num × Num) := do
  let (_, loc, scale) ← validateParams b loc scale
  return (loc + scale, pinf)

/-- `pareto.py` 124-133. -/
noncomputable def mean (b : Num) (loc : Num := 0) (scale : Num := 1) : M Num := do
  let (b, loc, scale) ← validateParams b loc scale
  if b ≤ 1 then
    return pinf
  else
    return loc + (← scale * b /. (b - 1))

/-- `pareto.py` 136-145. -/
noncomputable def var (b : Num) (loc : Num := 0) (scale : Num := 1) : M Num := do
  let (b, _, scale) ← validateParams b loc scale
  if b ≤ 2 then
    return nan
  else
    (← mp.ipow scale 2 * b /. mp.ipow (b - 1) 2) /. (b - 2)

/-- `pareto.py` 148-154. -/
noncomputable def entropy (b : Num) (loc : Num := 0) (scale : Num := 1) : M Num := do
  let (b, _, scale) ← validateParams b loc scale
  return 1 + (← 1 /. b) + (← mp.log (← scale /. b))

end Mpsci.pareto
