import Verif.Model.Dist.Normal

/-! Model of `mpsci/distributions/power_normal.py`. -/

namespace Mpsci.power_normal

open Classical Num common

/-- `power_normal.py` 19-24. -/
noncomputable def validate (c loc scale : Num) : M (Num × Num × Num) :=
  if c ≤ 0 then .error .valueError
  else if scale ≤ 0 then .error .valueError
  else .ok (c, loc, scale)

/-- `power_normal.py` 27-35. -/
noncomputable def pdf (x c : Num) (loc : Num := 0) (scale : Num := 1) : M Num := do
  let (c, loc, scale) ← validate c loc scale
  let z ← (x - loc) /. scale
  (c * (← mp.npdf z) * (← mp.power (mp.ncdf (-z)) (c - 1))) /. scale

/-- `power_normal.py` 38-49. -/
noncomputable def logpdf (x c : Num) (loc : Num := 0) (scale : Num := 1) : M Num := do
  let (c, loc, scale) ← validate c loc scale
  let z ← (x - loc) /. scale
  return (← mp.log c) + (← normal.logpdf z) + (c - 1) * (← mp.log (mp.ncdf (-z))) - (← mp.log scale)

/-- `power_normal.py` 52-60. -/
noncomputable def cdf (x c : Num) (loc : Num := 0) (scale : Num := 1) : M Num := do
  let (c, loc, scale) ← validate c loc scale
  let z ← (x - loc) /. scale
  return -(mp.expm1 (c * (← mp.log (mp.ncdf (-z)))))

/-- `power_normal.py` 63-72. -/
noncomputable def invcdf (p c : Num) (loc : Num := 0) (scale : Num := 1) : M Num := do
  let (c, loc, scale) ← validate c loc scale
  let p ← validateP p
  return loc - scale * (← normal.invcdf (← mp.power (1 - p) (← 1 /. c)))

/-- `power_normal.py` 75-83. -/
noncomputable def sf (x c : Num) (loc : Num := 0) (scale : Num := 1) : M Num := do
  let (c, loc, scale) ← validate c loc scale
  let z ← (x - loc) /. scale
  return mp.exp (c * (← mp.log (mp.ncdf (-z))))

/-- `power_normal.py` 86-93. -/
noncomputable def invsf (p c : Num) (loc : Num := 0) (scale : Num := 1) : M Num := do
  let (c, loc, scale) ← validate c loc scale
  let p ← validateP p
  return loc - scale * (← normal.invcdf (← mp.power p (← 1 /. c)))

/-- `power_normal.py` 96-101. -/
noncomputable def support (c : Num) (loc : Num := 0) (scale : Num := 1) : M (Num × Num) := do
  let _ ← validate c loc scale
  return (ninf, pinf)

end Mpsci.power_normal
