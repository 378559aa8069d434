import Verif.Model.Stats.Boxcox
import Verif.Base.BesselR
import Verif.Base.Quad

/-! Model of `mpsci/distributions/geninvgauss.py`. -/

namespace Mpsci.geninvgauss

open Classical Num

/-- `geninvgauss.py` 38-43. -/
noncomputable def validateParams (p b loc scale : Num) : M (Num × Num × Num × Num) :=
  if b ≤ 0 then .error .valueError
  else if scale ≤ 0 then .error .valueError
  else .ok (p, b, loc, scale)

/-- `geninvgauss.py` 72-94. -/
noncomputable def pdf (x p b : Num) (loc : Num := 0) (scale : Num := 1) : M Num := do
  let (p, b, loc, scale) ← validateParams p b loc scale
  if x ≤ loc then
    return 0
  else
    let z ← (x - loc) /. scale
    let t1 := (← mp.power z (p - 1)) * mp.exp (← (-b * (z + (← 1 /. z))) /. 2)
    let t2 ← t1 /. (2 * (← mp.besselkR p b))
    t2 /. scale

/-- `geninvgauss.py` 101-123. -/
noncomputable def logpdf (x p b : Num) (loc : Num := 0) (scale : Num := 1) : M Num := do
  let (p, b, loc, scale) ← validateParams p b loc scale
  if x ≤ loc then
    return ninf
  else
    let z ← (x - loc) /. scale
    return (p - 1) * (← mp.log z) - (← (b * (z + (← 1 /. z))) /. 2) - (← mp.log (2 * (← mp.besselkR p b))) - (← mp.log scale)

/-- `geninvgauss.py` 218-229. -/
noncomputable def mode (p b : Num) (loc : Num := 0) (scale : Num := 1) : M Num := do
  let (p, b, loc, scale) ← validateParams p b loc scale
  return loc + (← (scale * (p - 1 + (← mp.sqrt (mp.ipow (p - 1) 2 + mp.ipow b 2)))) /. b)

/-- `geninvgauss.py` 143-149: the integral up to `x`, in one or two pieces. -/
noncomputable def cdfQuad (x m p b loc scale : Num) : M Num := do
  if x ≤ m then
    mp.quad (fun t => pdf t p b loc scale) loc x
  else
    return (← mp.quad (fun t => pdf t p b loc scale) loc m) + (← mp.quad (fun t => pdf t p b loc scale) m x)

/-- `geninvgauss.py` 130-151; Python's `min(c, 1)` is `1` only if `1 < c`. -/
noncomputable def cdf (x p b : Num) (loc : Num := 0) (scale : Num := 1) : M Num := do
  let (p, b, loc, scale) ← validateParams p b loc scale
  if x ≤ loc then
    return 0
  else
    let m ← mode p b loc scale
    let c ← cdfQuad x m p b loc scale
    return if 1 < c then 1 else c

/-- `geninvgauss.py` 155-175. -/
noncomputable def sf (x p b : Num) (loc : Num := 0) (scale : Num := 1) : M Num := do
  let (p, b, loc, scale) ← validateParams p b loc scale
  if x ≤ loc then
    return 1
  else
    let m ← mode p b loc scale
    if x ≥ m then
      mp.quad (fun t => pdf t p b loc scale) x pinf
    else
      return (← mp.quad (fun t => pdf t p b loc scale) x m) + (← mp.quad (fun t => pdf t p b loc scale) m pinf)

/-- `geninvgauss.py` 178-183. -/
noncomputable def support (p b : Num) (loc : Num := 0) (scale : Num := 1) : M (Num × Num) := do
  let (_, _, loc, _) ← validateParams p b loc scale
  return (loc, pinf)

/-- `geninvgauss.py` 187-201. -/
noncomputable def mean (p b : Num) (loc : Num := 0) (scale : Num := 1) : M Num := do
  let (p, b, loc, scale) ← validateParams p b loc scale
  return loc + (← (scale * (← mp.besselkR (p + 1) b)) /. (← mp.besselkR p b))

/-- `geninvgauss.py` 246-254. -/
noncomputable def var (p b : Num) (loc : Num := 0) (scale : Num := 1) : M Num := do
  let (p, b, _, scale) ← validateParams p b loc scale
  let kpb ← mp.besselkR p b
  let r1 ← (← mp.besselkR (p + 2) b) /. kpb
  let r2 ← (← mp.besselkR (p + 1) b) /. kpb
  return mp.ipow scale 2 * (r1 - mp.ipow r2 2)

/-- `geninvgauss.py` 257-258. -/
noncomputable def besselkNderiv (n k : Num) : M Num := mp.diff (fun n => mp.besselkR n k) n

/-- `geninvgauss.py` 262-276. -/
noncomputable def entropy (p b : Num) (loc : Num := 0) (scale : Num := 1) : M Num := do
  let (p, b, _, scale) ← validateParams p b loc scale
  let kpb ← mp.besselkR p b
  let t1 ← mp.log scale
  let t2 ← mp.log (2 * kpb)
  let t3 ← (-(p - 1) * (← besselkNderiv p b)) /. kpb
  let t4 := (← b /. (2 * kpb)) * ((← mp.besselkR (p + 1) b) + (← mp.besselkR (p - 1) b))
  return mp.fsum [t1, t2, t3, t4]

end Mpsci.geninvgauss
