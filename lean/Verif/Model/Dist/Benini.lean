import Verif.Model.Common
import Verif.Base.Const
import Verif.Base.Erf

/-! Model of `mpsci/distributions/benini.py`. -/

namespace Mpsci.benini

open Classical Num common

/-- `benini.py` 80-84. -/
noncomputable def validatePositive (param : Num) : M Num :=
  if param ≤ 0 then .error .valueError else .ok param

/-- `benini.py` 87-91. -/
noncomputable def validateParams (alpha beta scale : Num) : M (Num × Num × Num) := do
  let alpha ← validatePositive alpha
  let beta ← validatePositive beta
  let scale ← validatePositive scale
  return (alpha, beta, scale)

/-- `benini.py` 94-96. -/
noncomputable def support (alpha beta scale : Num) : M (Num × Num) := do
  let (_, _, scale) ← validateParams alpha beta scale
  return (scale, pinf)

/-- `benini.py` 99-112. -/
noncomputable def logpdf (x alpha beta scale : Num) : M Num := do
  let (alpha, beta, scale) ← validateParams alpha beta scale
  if x =. scale then
    return (← mp.log alpha) - (← mp.log scale)
  else if x < scale then
    return ninf
  else
    let logz ← mp.log (← x /. scale)
    let blogz := beta * logz
    return -logz * (alpha + blogz) + (← mp.log (alpha + 2 * blogz)) - (← mp.log x)

/-- `benini.py` 115-120. -/
noncomputable def pdf (x alpha beta scale : Num) : M Num := do
  return mp.exp (← logpdf x alpha beta scale)

/-- `benini.py` 123-133. -/
noncomputable def cdf (x alpha beta scale : Num) : M Num := do
  let (alpha, beta, scale) ← validateParams alpha beta scale
  if x ≤ scale then
    return 0
  else
    let logz ← mp.log (← x /. scale)
    return -mp.expm1 (-logz * (alpha + beta * logz))

/-- `benini.py` 152-161. -/
noncomputable def invcdf (p alpha beta scale : Num) : M Num := do
  let (alpha, beta, scale) ← validateParams alpha beta scale
  let p ← validateP p
  let r := (← fin (-4) * beta /. mp.ipow alpha 2) * (← mp.log1p (-p))
  let t ← -r /. (1 + (← mp.sqrt (1 + r)))
  return scale * mp.exp ((← -alpha /. (2 * beta)) * t)

/-- `benini.py` 164-174. -/
noncomputable def sf (x alpha beta scale : Num) : M Num := do
  let (alpha, beta, scale) ← validateParams alpha beta scale
  if x ≤ scale then
    return 1
  else
    let logz ← mp.log (← x /. scale)
    return mp.exp (-logz * (alpha + beta * logz))

/-- `benini.py` 194-203. -/
noncomputable def invsf (p alpha beta scale : Num) : M Num := do
  let (alpha, beta, scale) ← validateParams alpha beta scale
  let p ← validateP p
  let r := (← fin (-4) * beta /. mp.ipow alpha 2) * (← mp.log p)
  let t ← -r /. (1 + (← mp.sqrt (1 + r)))
  return scale * mp.exp ((← -alpha /. (2 * beta)) * t)

/-- `benini.py` 206-211. -/
noncomputable def median (alpha beta scale : Num) : M Num :=
  invcdf (fin (1 / 2)) alpha beta scale

/-- `benini.py` 136-149. -/
noncomputable def logcdf (x alpha beta scale : Num) : M Num := do
  let (alpha, beta, scale) ← validateParams alpha beta scale
  if x ≤ scale then
    return ninf
  else
    let m ← median alpha beta scale
    if x < m then
      mp.log (← cdf x alpha beta scale)
    else
      mp.log1p (-(← sf x alpha beta scale))

/-- `benini.py` 177-191. -/
noncomputable def logsf (x alpha beta scale : Num) : M Num := do
  let (alpha, beta, scale) ← validateParams alpha beta scale
  if x ≤ scale then
    return 0
  else
    let m ← median alpha beta scale
    if x < m then
      mp.log1p (-(← cdf x alpha beta scale))
    else
      let logz ← mp.log (← x /. scale)
      return -logz * (alpha + beta * logz)

/-- `benini.py` 214-225. -/
noncomputable def mode (alpha beta scale : Num) : M Num := do
  let (alpha, beta, scale) ← validateParams alpha beta scale
  if beta ≤ (← alpha * (alpha + 1) /. 2) then
    return scale
  else
    return scale * mp.exp (← (fin (-2) * alpha + (← mp.sqrt (8 * beta + 1)) - 1) /. (4 * beta))

/-- `benini.py` 228-231. -/
noncomputable def hNeg1 (x : Num) : M Num := do
  let sqrt2 ← mp.sqrt 2
  let t ← x /. sqrt2
  return (← (← mp.sqrt mp.pi) /. sqrt2) * mp.exp (mp.ipow t 2) * mp.erfc t

/-- `benini.py` 234-241. -/
noncomputable def mean (alpha beta scale : Num) : M Num := do
  let (alpha, beta, scale) ← validateParams alpha beta scale
  let s ← mp.sqrt (2 * beta)
  return scale * (1 + (← (← hNeg1 (← (alpha - 1) /. s)) /. s))

/-- `benini.py` 244-253. -/
noncomputable def var (alpha beta scale : Num) : M Num := do
  let (alpha, beta, scale) ← validateParams alpha beta scale
  let mu ← mean alpha beta scale
  let s ← mp.sqrt (2 * beta)
  let g := scale * (← mp.sqrt (1 + (← 2 * (← hNeg1 (← (alpha - 2) /. s)) /. s)))
  return (g - mu) * (g + mu)

/-- `benini.py` 256-266, for integers `n`, of any sign (the order is not validated). `scale**n` is taken as `mp.power`. -/
noncomputable def noncentralMoment (n : ℤ) (alpha beta : Num) (scale : Num := 1) : M Num := do
  let (alpha, beta, scale) ← validateParams alpha beta scale
  let amn := alpha - fin n
  let tsqrtb := 2 * (← mp.sqrt beta)
  let r ← amn /. tsqrtb
  let r2 ← fin (1 / 4) * mp.ipow amn 2 /. beta
  return (← mp.power scale (fin n)) * (1 + (← fin n * (← mp.sqrt mp.pi) /. tsqrtb) * mp.exp r2 * mp.erfc r)

end Mpsci.benini
