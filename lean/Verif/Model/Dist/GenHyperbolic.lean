import Verif.Model.Common
import Verif.Base.BesselR
import Verif.Base.Quad

/-! Model of `mpsci/distributions/genhyperbolic.py`.  The literal 0.5 is exact; `mp.besselk` at 0 (reached for `abs(b) = a`) is not modelled. -/

namespace Mpsci.genhyperbolic

open Classical Num common

/-- `genhyperbolic.py` 26-33. -/
noncomputable def validateParams (p a b loc scale : Num) : M (Num × Num × Num × Num × Num) := do
  let (loc, scale) ← validateLocScale loc scale
  if a ≤ 0 then .error .valueError
  else if Num.abs b > a ∨ (Num.abs b =. a ∧ p ≥ 0) then .error .valueError
  else .ok (p, a, b, loc, scale)

/-- `genhyperbolic.py` 36-54. -/
noncomputable def logpdf (x p a b : Num) (loc : Num := 0) (scale : Num := 1) : M Num := do
  let (p, a, b, loc, scale) ← validateParams p a b loc scale
  let z ← (x - loc) /. scale
  let z2 := mp.ipow z 2
  let pmh := p - fin (1 / 2)
  return mp.fsum [
    (← p /. 2) * ((← mp.log (a + b)) + (← mp.log (a - b))),
    b * z,
    ← mp.log (← mp.besselkR pmh (a * (← mp.sqrt (1 + z2)))),
    -fin (1 / 2) * (← mp.log (2 * mp.pi)),
    -pmh * (← mp.log a),
    -(← mp.log (← mp.besselkR p (← mp.sqrt ((a + b) * (a - b))))),
    fin (1 / 2) * pmh * (← mp.log1p z2),
    -(← mp.log scale)]

/-- `genhyperbolic.py` 57-62. -/
noncomputable def pdf (x p a b : Num) (loc : Num := 0) (scale : Num := 1) : M Num := do
  return mp.exp (← logpdf x p a b loc scale)

/-- `genhyperbolic.py` 110-118. -/
noncomputable def mean (p a b : Num) (loc : Num := 0) (scale : Num := 1) : M Num := do
  let (p, a, b, loc, scale) ← validateParams p a b loc scale
  let d ← mp.sqrt ((a + b) * (a - b))
  let t ← b /. d
  let m ← (t * (← mp.besselkR (p + 1) d)) /. (← mp.besselkR p d)
  return loc + scale * m

/-- `genhyperbolic.py` 65-72. -/
noncomputable def integratePdf (x0 x1 p a b loc scale : Num) : M Num := do
  let m ← mean p a b loc scale
  if x0 < m ∧ m < x1 then
    let q1 ← mp.quad (fun t => pdf t p a b loc scale) x0 m
    let q2 ← mp.quad (fun t => pdf t p a b loc scale) m x1
    return q1 + q2
  else
    mp.quad (fun t => pdf t p a b loc scale) x0 x1

/-- `genhyperbolic.py` 75-85. -/
noncomputable def cdf (x p a b : Num) (loc : Num := 0) (scale : Num := 1) : M Num := do
  let (p, a, b, loc, scale) ← validateParams p a b loc scale
  integratePdf ninf x p a b loc scale

/-- `genhyperbolic.py` 88-98. -/
noncomputable def sf (x p a b : Num) (loc : Num := 0) (scale : Num := 1) : M Num := do
  let (p, a, b, loc, scale) ← validateParams p a b loc scale
  integratePdf x pinf p a b loc scale

/-- `genhyperbolic.py` 101-107. -/
noncomputable def support (p a b : Num) (loc : Num := 0) (scale : Num := 1) : M (Num × Num) := do
  let _ ← validateParams p a b loc scale
  return (ninf, pinf)

/-- `genhyperbolic.py` 121-132. -/
noncomputable def var (p a b : Num) (loc : Num := 0) (scale : Num := 1) : M Num := do
  let (p, a, b, _, scale) ← validateParams p a b loc scale
  let t := (a + b) * (a - b)
  let d ← mp.sqrt t
  let k0 ← mp.besselkR p d
  let k1 ← mp.besselkR (p + 1) d
  let k2 ← mp.besselkR (p + 2) d
  return mp.ipow scale 2 * ((← (← k1 /. k0) /. d) + (← mp.ipow b 2 /. t) * ((← k2 /. k0) - mp.ipow (← k1 /. k0) 2))

end Mpsci.genhyperbolic
