import Verif.Model.Common
import Verif.Base.Lambert

/-! Model of `mpsci/distributions/genexpon.py`. -/

namespace Mpsci.genexpon

open Classical Num common

/-- `genexpon.py` 16-25. -/
noncomputable def validateParams (a b c loc scale : Num) : M (Num × Num × Num × Num × Num) :=
  if a ≤ 0 then .error .valueError
  else if b ≤ 0 then .error .valueError
  else if c ≤ 0 then .error .valueError
  else if scale ≤ 0 then .error .valueError
  else .ok (a, b, c, loc, scale)

/-- `genexpon.py` 28-33. -/
noncomputable def validateXParams (x a b c loc scale : Num) : M (Num × Num × Num × Num × Num × Num) := do
  let (a, b, c, loc, scale) ← validateParams a b c loc scale
  if x < loc then .error .valueError
  else return (x, a, b, c, loc, scale)

/-- `genexpon.py` 37-46. -/
noncomputable def pdf (x a b c : Num) (loc : Num := 0) (scale : Num := 1) : M Num := do
  let (x, a, b, c, loc, scale) ← validateXParams x a b c loc scale
  let z ← (x - loc) /. scale
  let s := a + b
  let r ← b /. c
  ((a + b * -(mp.expm1 (-c * z))) * mp.exp (-s * z + r * -(mp.expm1 (-c * z)))) /. scale

/-- `genexpon.py` 50-58. -/
noncomputable def logpdf (x a b c : Num) (loc : Num := 0) (scale : Num := 1) : M Num := do
  let (x, a, b, c, loc, scale) ← validateXParams x a b c loc scale
  let z ← (x - loc) /. scale
  let s := a + b
  let r ← b /. c
  return (← mp.log (a + b * -(mp.expm1 (-c * z)))) + (-s * z + r * -(mp.expm1 (-c * z)))

/-- `genexpon.py` 62-70. -/
noncomputable def cdf (x a b c : Num) (loc : Num := 0) (scale : Num := 1) : M Num := do
  let (x, a, b, c, loc, scale) ← validateXParams x a b c loc scale
  let z ← (x - loc) /. scale
  let s := a + b
  let r ← b /. c
  return -(mp.expm1 (-s * z + r * -(mp.expm1 (-c * z))))

/-- `genexpon.py` 74-82. -/
noncomputable def sf (x a b c : Num) (loc : Num := 0) (scale : Num := 1) : M Num := do
  let (x, a, b, c, loc, scale) ← validateXParams x a b c loc scale
  let z ← (x - loc) /. scale
  let s := a + b
  let r ← b /. c
  return mp.exp (-s * z + r * -(mp.expm1 (-c * z)))

/-- `genexpon.py` 86-97. -/
noncomputable def invcdf (p a b c : Num) (loc : Num := 0) (scale : Num := 1) : M Num := do
  let p ← validateP p
  let (a, b, c, loc, scale) ← validateParams a b c loc scale
  let r ← b /. (a + b)
  let s := (← r /. c) - (← (← mp.log1p (-p)) /. (a + b))
  let x := s + (← (← mp.lambertw (-r * mp.exp (-s * c))) /. c)
  return loc + scale * x

/-- `genexpon.py` 101-110. -/
noncomputable def invsf (p a b c : Num) (loc : Num := 0) (scale : Num := 1) : M Num := do
  let p ← validateP p
  let (a, b, c, loc, scale) ← validateParams a b c loc scale
  let r ← b /. (a + b)
  let s := (← r /. c) - (← (← mp.log p) /. (a + b))
  let x := s + (← (← mp.lambertw (-r * mp.exp (-s * c))) /. c)
  return loc + scale * x

/-- `genexpon.py` 113-118. -/
noncomputable def support (a b c : Num) (loc : Num := 0) (scale : Num := 1) : M (Num × Num) := do
  let (_, _, _, loc, _) ← validateParams a b c loc scale
  return (loc, pinf)

end Mpsci.genexpon
