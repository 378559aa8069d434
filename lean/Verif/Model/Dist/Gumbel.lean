import Verif.Model.Common
import Verif.Base.Const

/-! Models of `mpsci/distributions/gumbel_max.py` and `gumbel_min.py`. -/

namespace Mpsci.gumbel_max

open Classical Num common

/-- `gumbel_max.py` 44-51. -/
noncomputable def logpdf (x loc scale : Num) : M Num := do
  let (loc, scale) ← validateLocScale loc scale
  let z ← (x - loc) /. scale
  return -(z + mp.exp (-z)) - (← mp.log scale)

/-- `gumbel_max.py` 35-40. -/
noncomputable def pdf (x loc scale : Num) : M Num := do
  let (loc, scale) ← validateLocScale loc scale
  return mp.exp (← logpdf x loc scale)

/-- `gumbel_max.py` 55-62. -/
noncomputable def cdf (x loc scale : Num) : M Num := do
  let (loc, scale) ← validateLocScale loc scale
  let z ← (x - loc) /. scale
  return mp.exp (-mp.exp (-z))

/-- `gumbel_max.py` 66-74. -/
noncomputable def invcdf (p loc scale : Num) : M Num := do
  let (loc, scale) ← validateLocScale loc scale
  let p ← validateP p
  let z := -(← mp.log (-(← mp.log p)))
  return scale * z + loc

/-- `gumbel_max.py` 78-85. -/
noncomputable def sf (x loc scale : Num) : M Num := do
  let (loc, scale) ← validateLocScale loc scale
  let z ← (x - loc) /. scale
  return -mp.expm1 (-mp.exp (-z))

/-- `gumbel_max.py` 89-97. -/
noncomputable def invsf (p loc scale : Num) : M Num := do
  let (loc, scale) ← validateLocScale loc scale
  let p ← validateP p
  let z := -(← mp.log (-(← mp.log1p (-p))))
  return scale * z + loc

/-- `gumbel_max.py` 100-105. -/
noncomputable def support (loc scale : Num) : M (Num × Num) := do
  let _ ← validateLocScale loc scale
  return (ninf, pinf)

/-- `gumbel_max.py` 109-114. -/
noncomputable def mean (loc scale : Num) : M Num := do
  let (loc, scale) ← validateLocScale loc scale
  return loc + mp.euler * scale

/-- `gumbel_max.py` 117-122. -/
noncomputable def mode (loc scale : Num) : M Num := do
  let (loc, _) ← validateLocScale loc scale
  return loc

/-- `gumbel_max.py` 126-131. -/
noncomputable def var (loc scale : Num) : M Num := do
  let (_, scale) ← validateLocScale loc scale
  return (← mp.ipow mp.pi 2 /. 6) * mp.ipow scale 2

end Mpsci.gumbel_max

namespace Mpsci.gumbel_min

open Classical Num common

/-- `gumbel_min.py` 35-42. -/
noncomputable def logpdf (x loc scale : Num) : M Num := do
  let (loc, scale) ← validateLocScale loc scale
  let z ← (x - loc) /. scale
  return -(-z + mp.exp z) - (← mp.log scale)

/-- `gumbel_min.py` 26-31. -/
noncomputable def pdf (x loc scale : Num) : M Num := do
  let (loc, scale) ← validateLocScale loc scale
  return mp.exp (← logpdf x loc scale)

/-- `gumbel_min.py` 46-53. -/
noncomputable def cdf (x loc scale : Num) : M Num := do
  let (loc, scale) ← validateLocScale loc scale
  let z ← (x - loc) /. scale
  return -mp.expm1 (-mp.exp z)

/-- `gumbel_min.py` 57-65. -/
noncomputable def invcdf (p loc scale : Num) : M Num := do
  let (loc, scale) ← validateLocScale loc scale
  let p ← validateP p
  let z ← mp.log (-(← mp.log1p (-p)))
  return scale * z + loc

/-- `gumbel_min.py` 69-76. -/
noncomputable def sf (x loc scale : Num) : M Num := do
  let (loc, scale) ← validateLocScale loc scale
  let z ← (x - loc) /. scale
  return mp.exp (-mp.exp z)

/-- `gumbel_min.py` 80-88. -/
noncomputable def invsf (p loc scale : Num) : M Num := do
  let (loc, scale) ← validateLocScale loc scale
  let p ← validateP p
  let z ← mp.log (-(← mp.log p))
  return scale * z + loc

/-- `gumbel_min.py` 91-96. -/
noncomputable def support (loc scale : Num) : M (Num × Num) := do
  let _ ← validateLocScale loc scale
  return (ninf, pinf)

/-- `gumbel_min.py` 100-105. -/
noncomputable def mean (loc scale : Num) : M Num := do
  let (loc, scale) ← validateLocScale loc scale
  return loc - mp.euler * scale

/-- `gumbel_min.py` 108-113. -/
noncomputable def mode (loc scale : Num) : M Num := do
  let (loc, _) ← validateLocScale loc scale
  return loc

/-- `gumbel_min.py` 117-122. -/
noncomputable def var (loc scale : Num) : M Num := do
  let (_, scale) ← validateLocScale loc scale
  return (← mp.ipow mp.pi 2 /. 6) * mp.ipow scale 2

end Mpsci.gumbel_min
