import Verif.Model.Common
import Verif.Model.Common.Newton
import Verif.Base.Normal
import Verif.Base.GammaInc
import Verif.Base.Discrete
import Verif.Base.Expint

/-! Model of `mpsci/distributions/invgauss.py`. -/

namespace Mpsci

open Classical Num

/-- `mp.gammaprod([a], [b, c])` at positive arguments. -/
noncomputable def mp.gammaprod12 : Num → Num → Num → M Num
  | fin a, fin b, fin c =>
    if 0 < a ∧ 0 < b ∧ 0 < c then .ok (fin (Real.Gamma a / (Real.Gamma b * Real.Gamma c))) else .error .notModelled
  | _, _, _ => .error .notModelled

namespace invgauss

open common

/-- `invgauss.py` 47-55. -/
noncomputable def validateParams (m loc scale : Num) : M (Num × Num × Num) :=
  if m ≤ 0 then .error .valueError
  else if scale ≤ 0 then .error .valueError
  else .ok (m, loc, scale)

/-- `invgauss.py` 59-71. -/
noncomputable def pdf (x m : Num) (loc : Num := 0) (scale : Num := 1) : M Num := do
  let (m, loc, scale) ← validateParams m loc scale
  if x ≤ loc then
    return 0
  else
    let z ← (x - loc) /. scale
    let den := scale * (← mp.sqrt (2 * mp.pi * mp.ipow z 3))
    let t := mp.ipow (← (z - m) /. m) 2
    let num := mp.exp (← (-t) /. (2 * z))
    num /. den

/-- `invgauss.py` 75-87; the literals 0.5 and 1.5 are exact. -/
noncomputable def logpdf (x m : Num) (loc : Num := 0) (scale : Num := 1) : M Num := do
  let (m, loc, scale) ← validateParams m loc scale
  if x ≤ loc then
    return ninf
  else
    let z ← (x - loc) /. scale
    let t := mp.ipow (← (z - m) /. m) 2
    return fin (-(1 / 2)) * (← mp.log (2 * mp.pi)) - fin (3 / 2) * (← mp.log z) - (← t /. (2 * z)) - (← mp.log scale)

/-- `invgauss.py` 91-102. -/
noncomputable def cdf (x m : Num) (loc : Num := 0) (scale : Num := 1) : M Num := do
  let (m, loc, scale) ← validateParams m loc scale
  if x ≤ loc then
    return 0
  else
    let z ← (x - loc) /. scale
    let t1 := mp.ncdf (← ((← z /. m) - 1) /. (← mp.sqrt z))
    let t2 := mp.exp (← 2 /. m) * mp.ncdf (← (-((← z /. m) + 1)) /. (← mp.sqrt z))
    return t1 + t2

/-- `invgauss.py` 106-117. -/
noncomputable def logcdf (x m : Num) (loc : Num := 0) (scale : Num := 1) : M Num := do
  let (m, loc, scale) ← validateParams m loc scale
  if x ≤ loc then
    return ninf
  else
    let z ← (x - loc) /. scale
    let t1 ← mp.log (mp.ncdf (← ((← z /. m) - 1) /. (← mp.sqrt z)))
    let t2 := (← 2 /. m) + (← mp.log (mp.ncdf (← (-((← z /. m) + 1)) /. (← mp.sqrt z))))
    return t1 + (← mp.log1p (mp.exp (t2 - t1)))

/-- `invgauss.py` 142-153. -/
noncomputable def sf (x m : Num) (loc : Num := 0) (scale : Num := 1) : M Num := do
  let (m, loc, scale) ← validateParams m loc scale
  if x ≤ loc then
    return 1
  else
    let z ← (x - loc) /. scale
    let t1 := mp.ncdf (← (-((← z /. m) - 1)) /. (← mp.sqrt z))
    let t2 := mp.exp (← 2 /. m) * mp.ncdf (← (-((← z /. m) + 1)) /. (← mp.sqrt z))
    return t1 - t2

/-- `invgauss.py` 157-168. -/
noncomputable def logsf (x m : Num) (loc : Num := 0) (scale : Num := 1) : M Num := do
  let (m, loc, scale) ← validateParams m loc scale
  if x ≤ loc then
    return 0
  else
    let z ← (x - loc) /. scale
    let t1 ← mp.log (mp.ncdf (← (-((← z /. m) - 1)) /. (← mp.sqrt z)))
    let t2 := (← 2 /. m) + (← mp.log (mp.ncdf (← (-((← z /. m) + 1)) /. (← mp.sqrt z))))
    return t1 + (← mp.log1p (-mp.exp (t2 - t1)))

/-- `invgauss.py` 220-229. -/
noncomputable def mode (m : Num) (loc : Num := 0) (scale : Num := 1) : M Num := do
  let (m, loc, scale) ← validateParams m loc scale
  let s ← (3 * m) /. 2
  let t := mp.expm1 (← (← mp.log1p (← 1 /. mp.ipow s 2)) /. 2)
  return scale * (m * s * t) + loc

/-- `invgauss.py` 134. -/
noncomputable def cdfStep (p m loc scale x0 : Num) : M Num := do
  return x0 + (← (p - (← cdf x0 m loc scale)) /. (← pdf x0 m loc scale))

/-- `invgauss.py` 121-138; `eps` is the tolerance of `mp.almosteq`. -/
noncomputable def invcdf (eps : ℝ) (fuel : ℕ) (p m : Num) (loc : Num := 0) (scale : Num := 1) : M Num := do
  let (m, loc, scale) ← validateParams m loc scale
  let p ← validateP p
  if p =. 0 then
    return loc
  else if p =. 1 then
    return pinf
  else
    let x0 ← mode m loc scale
    newtonLoop eps fuel (cdfStep p m loc scale) x0

/-- `invgauss.py` 185. -/
noncomputable def sfStep (p m loc scale x0 : Num) : M Num := do
  return x0 - (← (p - (← sf x0 m loc scale)) /. (← pdf x0 m loc scale))

/-- `invgauss.py` 172-189. -/
noncomputable def invsf (eps : ℝ) (fuel : ℕ) (p m : Num) (loc : Num := 0) (scale : Num := 1) : M Num := do
  let (m, loc, scale) ← validateParams m loc scale
  let p ← validateP p
  if p =. 0 then
    return pinf
  else if p =. 1 then
    return loc
  else
    let x0 ← mode m loc scale
    newtonLoop eps fuel (sfStep p m loc scale) x0

/-- `invgauss.py` 193-198. -/
noncomputable def support (m : Num) (loc : Num := 0) (scale : Num := 1) : M (Num × Num) := do
  let (_, loc, _) ← validateParams m loc scale
  return (loc, pinf)

/-- `invgauss.py` 202-207. -/
noncomputable def mean (m : Num) (loc : Num := 0) (scale : Num := 1) : M Num := do
  let (m, loc, scale) ← validateParams m loc scale
  return scale * m + loc

/-- `invgauss.py` 211-216. -/
noncomputable def median (eps : ℝ) (fuel : ℕ) (m : Num) (loc : Num := 0) (scale : Num := 1) : M Num := do
  let (m, loc, scale) ← validateParams m loc scale
  invcdf eps fuel (← 1 /. 2) m loc scale

/-- `invgauss.py` 233-238. -/
noncomputable def var (m : Num) (loc : Num := 0) (scale : Num := 1) : M Num := do
  let (m, _, scale) ← validateParams m loc scale
  return mp.ipow m 3 * mp.ipow scale 2

/-- `invgauss.py` 242-249.  `mp.expint(1, x)` is `mp.e1(x)`. -/
noncomputable def entropy (m : Num) (loc : Num := 0) (scale : Num := 1) : M Num := do
  let (m, _, scale) ← validateParams m loc scale
  let t1 ← ((← mp.log (2 * mp.pi)) + 3 * (← mp.log m) + 1) /. 2
  let t2 ← (3 * (mp.exp (← 2 /. m) * (← mp.e1 (← 2 /. m)))) /. 2
  return t1 - t2 + (← mp.log scale)

/-- `invgauss.py` 253-261. -/
noncomputable def standardNoncentralMoment (n : ℕ) (m : Num) : M Num := do
  if n = 0 then
    return 1
  else
    let terms ← (List.range n).mapM fun (k : ℕ) => do
      return (← mp.gammaprod12 (fin (n + k)) (fin (k + 1)) (fin (n - k))) * mp.ipow (← m /. 2) k
    return mp.ipow m n * mp.fsum terms

/-- `invgauss.py` 265-282. `mp.power` with an integer exponent is the integer power. -/
noncomputable def noncentralMoment (n : ℤ) (m : Num) (loc : Num := 0) (scale : Num := 1) : M Num := do
  let n ← validateMomentN n
  let (m, loc, scale) ← validateParams m loc scale
  if n = 0 then
    return 1
  else
    let terms ← (List.range (n + 1)).mapM fun (k : ℕ) => do
      return (← mp.binomial n k) * mp.ipow loc (n - k) * mp.ipow scale k * (← standardNoncentralMoment k m)
    return mp.fsum terms

end invgauss

end Mpsci
