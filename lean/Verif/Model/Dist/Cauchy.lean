import Verif.Model.Common

/-! Model of `mpsci/distributions/cauchy.py`. -/

namespace Mpsci.cauchy

open Classical Num common

/-- `cauchy.py` 15-20. -/
noncomputable def support (loc : Num := 0) (scale : Num := 1) : M (Num × Num) := do
  let _ ← validateLocScale loc scale
  return (ninf, pinf)

/-- `cauchy.py` 23-29. -/
noncomputable def pdf (x : Num) (loc : Num := 0) (scale : Num := 1) : M Num := do
  let (loc, scale) ← validateLocScale loc scale
  let z ← (x - loc) /. scale
  1 /. (mp.pi * scale * (1 + mp.ipow z 2))

/-- `cauchy.py` 32-38. -/
noncomputable def logpdf (x : Num) (loc : Num := 0) (scale : Num := 1) : M Num := do
  let (loc, scale) ← validateLocScale loc scale
  let z ← (x - loc) /. scale
  return -(← mp.log mp.pi) - (← mp.log scale) - (← mp.log1p (mp.ipow z 2))

/-- `cauchy.py` 41-47. -/
noncomputable def cdf (x : Num) (loc : Num := 0) (scale : Num := 1) : M Num := do
  let (loc, scale) ← validateLocScale loc scale
  let z ← (x - loc) /. scale
  mp.atan2pos 1 (-z) /. mp.pi

/-- `cauchy.py` 50-55. -/
noncomputable def invcdf (p : Num) (loc : Num := 0) (scale : Num := 1) : M Num := do
  let p ← validateP p
  let (loc, scale) ← validateLocScale loc scale
  return loc - scale * (← mp.cot (mp.pi * p))

/-- `cauchy.py` 58-64. -/
noncomputable def sf (x : Num) (loc : Num := 0) (scale : Num := 1) : M Num := do
  let (loc, scale) ← validateLocScale loc scale
  let z ← (x - loc) /. scale
  mp.atan2pos 1 z /. mp.pi

/-- `cauchy.py` 67-72. -/
noncomputable def invsf (p : Num) (loc : Num := 0) (scale : Num := 1) : M Num := do
  let p ← validateP p
  let (loc, scale) ← validateLocScale loc scale
  return loc + scale * (← mp.cot (mp.pi * p))

/-- `cauchy.py` 75-82. -/
noncomputable def mean (loc : Num := 0) (scale : Num := 1) : M Num := do
  let _ ← validateLocScale loc scale
  return nan

/-- `cauchy.py` 85-92. -/
noncomputable def mode (loc : Num := 0) (scale : Num := 1) : M Num := do
  let _ ← validateLocScale loc scale
  return loc

/-- `cauchy.py` 95-102. -/
noncomputable def var (loc : Num := 0) (scale : Num := 1) : M Num := do
  let _ ← validateLocScale loc scale
  return nan

/-- `cauchy.py` 105-113. -/
noncomputable def entropy (loc : Num := 0) (scale : Num := 1) : M Num := do
  let (_, scale) ← validateLocScale loc scale
  mp.log (4 * mp.pi * scale)

end Mpsci.cauchy
