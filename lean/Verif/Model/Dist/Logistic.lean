import Verif.Model.Common

/-! Model of `mpsci/distributions/logistic.py`. -/

namespace Mpsci.logistic

open Classical Num common

/-- `logistic.py` 20-27. -/
noncomputable def pdf (x : Num) (loc : Num := 0) (scale : Num := 1) : M Num := do
  let (loc, scale) ← validateLocScale loc scale
  let z ← (x - loc) /. scale
  mp.ipow (mp.sech (← z /. 2)) 2 /. (4 * scale)

/-- `logistic.py` 31-38. -/
noncomputable def logpdf (x : Num) (loc : Num := 0) (scale : Num := 1) : M Num := do
  let (loc, scale) ← validateLocScale loc scale
  let z ← (x - loc) /. scale
  return 2 * (← mp.log (mp.sech (← z /. 2))) - (← mp.log (4 * scale))

/-- `logistic.py` 42-49. -/
noncomputable def cdf (x : Num) (loc : Num := 0) (scale : Num := 1) : M Num := do
  let (loc, scale) ← validateLocScale loc scale
  let z ← (x - loc) /. scale
  (1 + mp.tanh (← z /. 2)) /. 2

/-- `logistic.py` 53-60. -/
noncomputable def sf (x : Num) (loc : Num := 0) (scale : Num := 1) : M Num := do
  let (loc, scale) ← validateLocScale loc scale
  let z ← (x - loc) /. scale
  (1 - mp.tanh (← z /. 2)) /. 2

/-- `logistic.py` 64-73. -/
noncomputable def invcdf (p : Num) (loc : Num := 0) (scale : Num := 1) : M Num := do
  let (loc, scale) ← validateLocScale loc scale
  let p ← validateP p
  return loc + scale * ((← mp.log p) - (← mp.log1p (-p)))

/-- `logistic.py` 77-83. -/
noncomputable def invsf (p : Num) (loc : Num := 0) (scale : Num := 1) : M Num := do
  let (loc, scale) ← validateLocScale loc scale
  let p ← validateP p
  return loc + scale * ((← mp.log1p (-p)) - (← mp.log p))

/-- `logistic.py` 86-91. -/
noncomputable def support (loc : Num := 0) (scale : Num := 1) : M (Num × Num) := do
  let _ ← validateLocScale loc scale
  return (ninf, pinf)

/-- `logistic.py` 94-99. -/
noncomputable def mean (loc : Num := 0) (scale : Num := 1) : M Num := do
  let (loc, _) ← validateLocScale loc scale
  return loc

/-- `logistic.py` 102-107. -/
noncomputable def mode (loc : Num := 0) (scale : Num := 1) : M Num := do
  let (loc, _) ← validateLocScale loc scale
  return loc

/-- `logistic.py` 110-116. -/
noncomputable def var (loc : Num := 0) (scale : Num := 1) : M Num := do
  let (_, scale) ← validateLocScale loc scale
  mp.ipow scale 2 * mp.ipow mp.pi 2 /. 3

/-- `logistic.py` 119-125. -/
noncomputable def entropy (loc : Num := 0) (scale : Num := 1) : M Num := do
  let (_, scale) ← validateLocScale loc scale
  return (← mp.log scale) + 2

end Mpsci.logistic
