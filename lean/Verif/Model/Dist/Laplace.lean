import Verif.Model.Common

/-! Model of `mpsci/distributions/laplace.py`. -/

namespace Mpsci.laplace

open Classical Num common

/-- `laplace.py` 22-29. -/
noncomputable def pdf (x : Num) (loc : Num := 0) (scale : Num := 1) : M Num := do
  let (loc, scale) ← validateLocScale loc scale
  mp.exp (← -Num.abs (x - loc) /. scale) /. (2 * scale)

/-- `laplace.py` 32-39. -/
noncomputable def logpdf (x : Num) (loc : Num := 0) (scale : Num := 1) : M Num := do
  let (loc, scale) ← validateLocScale loc scale
  return (← -Num.abs (x - loc) /. scale) - (← mp.log (2 * scale))

/-- `laplace.py` 42-54. -/
noncomputable def cdf (x : Num) (loc : Num := 0) (scale : Num := 1) : M Num := do
  let (loc, scale) ← validateLocScale loc scale
  let z ← (x - loc) /. scale
  if x ≤ loc then
    mp.exp z /. 2
  else
    return 1 - (← mp.exp (-z) /. 2)

/-- `laplace.py` 57-69. -/
noncomputable def sf (x : Num) (loc : Num := 0) (scale : Num := 1) : M Num := do
  let (loc, scale) ← validateLocScale loc scale
  let z ← (x - loc) /. scale
  if x ≤ loc then
    return 1 - (← mp.exp z /. 2)
  else
    mp.exp (-z) /. 2

/-- `laplace.py` 72-101. -/
noncomputable def intervalProb (x1 x2 : Num) (loc : Num := 0) (scale : Num := 1) : M Num := do
  let (loc, scale) ← validateLocScale loc scale
  if x1 > x2 then
    throw .valueError
  else if x1 =. x2 then
    return 0
  else
    let z1 ← (x1 - loc) /. scale
    let z2 ← (x2 - loc) /. scale
    let delta := z2 - z1
    if z2 ≤ 0 then
      -mp.exp z2 * mp.expm1 (-delta) /. 2
    else if z1 ≥ 0 then
      -mp.exp (-z1) * mp.expm1 (-delta) /. 2
    else
      -(mp.expm1 (-z2) + mp.expm1 z1) /. 2

/-- `laplace.py` 104-118.  There is no validation of `p`. -/
noncomputable def invcdf (p : Num) (loc : Num := 0) (scale : Num := 1) : M Num := do
  let (loc, scale) ← validateLocScale loc scale
  if p ≤ fin (1 / 2) then
    return loc + scale * (← mp.log (2 * p))
  else
    return loc - scale * (← mp.log (2 - 2 * p))

/-- `laplace.py` 121-132. -/
noncomputable def invsf (p : Num) (loc : Num := 0) (scale : Num := 1) : M Num := do
  let (loc, scale) ← validateLocScale loc scale
  if p ≥ fin (1 / 2) then
    return loc + scale * (← mp.log (2 - 2 * p))
  else
    return loc - scale * (← mp.log (2 * p))

/-- `laplace.py` 135-141. -/
noncomputable def support (loc : Num := 0) (scale : Num := 1) : M (Num × Num) := do
  let _ ← validateLocScale loc scale
  return (ninf, pinf)

/-- `laplace.py` 144-150. -/
noncomputable def mean (loc : Num := 0) (scale : Num := 1) : M Num := do
  let (loc, _) ← validateLocScale loc scale
  return loc

/-- `laplace.py` 153-159. -/
noncomputable def mode (loc : Num := 0) (scale : Num := 1) : M Num := do
  let (loc, _) ← validateLocScale loc scale
  return loc

/-- `laplace.py` 162-169. -/
noncomputable def var (loc : Num := 0) (scale : Num := 1) : M Num := do
  let (_, scale) ← validateLocScale loc scale
  return 2 * mp.ipow scale 2

end Mpsci.laplace
