import Verif.Model.Common

/-! Model of `mpsci/distributions/hypsecant.py`. -/

namespace Mpsci.hypsecant

open Classical Num common

/-- `hypsecant.py` 24-27. -/
noncomputable def validateArgs (x loc scale : Num) : M (Num × Num × Num) := do
  let (loc, scale) ← validateLocScale loc scale
  return (x, loc, scale)

/-- `hypsecant.py` 31-37. -/
noncomputable def pdf (x : Num) (loc : Num := 0) (scale : Num := 1) : M Num := do
  let (x, loc, scale) ← validateArgs x loc scale
  let z ← (x - loc) /. scale
  (← mp.sech z /. mp.pi) /. scale

/-- `hypsecant.py` 40-46. -/
noncomputable def logpdf (x : Num) (loc : Num := 0) (scale : Num := 1) : M Num := do
  mp.log (← pdf x loc scale)

/-- `hypsecant.py` 50-56. -/
noncomputable def cdf (x : Num) (loc : Num := 0) (scale : Num := 1) : M Num := do
  let (x, loc, scale) ← validateArgs x loc scale
  let z ← (x - loc) /. scale
  return (← 2 /. mp.pi) * mp.atan (mp.exp z)

/-- `hypsecant.py` 60-66. -/
noncomputable def sf (x : Num) (loc : Num := 0) (scale : Num := 1) : M Num := do
  let (x, loc, scale) ← validateArgs x loc scale
  let z ← (x - loc) /. scale
  return (← 2 /. mp.pi) * mp.atan (mp.exp (-z))

/-- `hypsecant.py` 70-79. -/
noncomputable def invcdf (p : Num) (loc : Num := 0) (scale : Num := 1) : M Num := do
  let (loc, scale) ← validateLocScale loc scale
  let p ← validateP p
  return loc + scale * (← mp.log (← mp.tan (← mp.pi * p /. 2)))

/-- `hypsecant.py` 83-89. -/
noncomputable def invsf (p : Num) (loc : Num := 0) (scale : Num := 1) : M Num := do
  let (loc, scale) ← validateLocScale loc scale
  let p ← validateP p
  return loc - scale * (← mp.log (← mp.tan (← mp.pi * p /. 2)))

/-- `hypsecant.py` 92-97. -/
noncomputable def support (loc : Num := 0) (scale : Num := 1) : M (Num × Num) := do
  let _ ← validateLocScale loc scale
  return (ninf, pinf)

/-- `hypsecant.py` 100-105. -/
noncomputable def mean (loc : Num := 0) (scale : Num := 1) : M Num := do
  let (loc, _) ← validateLocScale loc scale
  return loc

/-- `hypsecant.py` 108-115. -/
noncomputable def mode (loc : Num := 0) (scale : Num := 1) : M Num := do
  let _ ← validateLocScale loc scale
  return loc

/-- `hypsecant.py` 119-124. -/
noncomputable def var (loc : Num := 0) (scale : Num := 1) : M Num := do
  let (_, scale) ← validateLocScale loc scale
  return mp.ipow ((← mp.pi /. 2) * scale) 2

/-- `hypsecant.py` 128-133. -/
noncomputable def entropy (loc : Num := 0) (scale : Num := 1) : M Num := do
  let (_, scale) ← validateLocScale loc scale
  return (← mp.log (2 * mp.pi)) + (← mp.log scale)

/-- `hypsecant.py` 137-145. -/
noncomputable def nll (x : List Num) (loc scale : Num) : M Num := do
  let (loc, scale) ← validateLocScale loc scale
  let x ← validateXBounds x none none false false
  return -(mp.fsum (← x.mapM fun t => logpdf t loc scale))

end Mpsci.hypsecant
