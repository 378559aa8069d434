import Verif.Model.Common

/-! Model of `mpsci/distributions/half_logistic.py`. -/

namespace Mpsci.half_logistic

open Classical Num common

/-- `half_logistic.py` 19-29. -/
noncomputable def pdf (x : Num) (loc : Num := 0) (scale : Num := 1) : M Num := do
  let (loc, scale) ← validateLocScale loc scale
  if x < loc then
    return 0
  else
    let z ← (x - loc) /. scale
    (← mp.ipow (mp.sech (← z /. 2)) 2 /. 2) /. scale

/-- `half_logistic.py` 32-42. -/
noncomputable def logpdf (x : Num) (loc : Num := 0) (scale : Num := 1) : M Num := do
  let (loc, scale) ← validateLocScale loc scale
  if x < loc then
    return ninf
  else
    let z ← (x - loc) /. scale
    return 2 * (← mp.log (mp.sech (← z /. 2))) - (← mp.log 2) - (← mp.log scale)

/-- `half_logistic.py` 45-55. -/
noncomputable def cdf (x : Num) (loc : Num := 0) (scale : Num := 1) : M Num := do
  let (loc, scale) ← validateLocScale loc scale
  if x < loc then
    return 0
  else
    let z ← (x - loc) /. scale
    (-mp.expm1 (-z)) /. (1 + mp.exp (-z))

/-- `half_logistic.py` 58-71. -/
noncomputable def invcdf (p : Num) (loc : Num := 0) (scale : Num := 1) : M Num := do
  let (loc, scale) ← validateLocScale loc scale
  let p ← validateP p
  if p =. 1 then
    return pinf
  else if p =. 0 then
    return loc
  else
    return loc - scale * ((← mp.log1p (-p)) - (← mp.log1p p))

/-- `half_logistic.py` 74-84. -/
noncomputable def sf (x : Num) (loc : Num := 0) (scale : Num := 1) : M Num := do
  let (loc, scale) ← validateLocScale loc scale
  if x < loc then
    return 1
  else
    let z ← (x - loc) /. scale
    2 * mp.exp (-z) /. (1 + mp.exp (-z))

/-- `half_logistic.py` 87-98. -/
noncomputable def invsf (p : Num) (loc : Num := 0) (scale : Num := 1) : M Num := do
  let (loc, scale) ← validateLocScale loc scale
  let p ← validateP p
  if p =. 1 then
    return loc
  else if p =. 0 then
    return pinf
  else
    return loc - scale * (← mp.log (← (← p /. 2) /. (1 - (← p /. 2))))

/-- `half_logistic.py` 101-107. -/
noncomputable def mean (loc : Num := 0) (scale : Num := 1) : M Num := do
  let (loc, scale) ← validateLocScale loc scale
  return loc + scale * (← mp.log 4)

/-- `half_logistic.py` 110-118. -/
noncomputable def mode (loc : Num := 0) (scale : Num := 1) : M Num := do
  let (loc, _) ← validateLocScale loc scale
  return loc

/-- `half_logistic.py` 121-127. -/
noncomputable def var (loc : Num := 0) (scale : Num := 1) : M Num := do
  let (_, scale) ← validateLocScale loc scale
  return mp.ipow scale 2 * ((← mp.ipow mp.pi 2 /. 3) - mp.ipow (← mp.log 4) 2)

/-- `half_logistic.py` 130-136. -/
noncomputable def entropy (loc : Num := 0) (scale : Num := 1) : M Num := do
  let (_, scale) ← validateLocScale loc scale
  return (← mp.log (← scale /. 2)) + 2

/-- `half_logistic.py` 139-144. -/
noncomputable def support (loc : Num := 0) (scale : Num := 1) : M (Num × Num) := do
  let (loc, _) ← validateLocScale loc scale
  return (loc, pinf)

end Mpsci.half_logistic
