import Verif.Model.Common
import Verif.Base.Sinc

/-! Model of `mpsci/distributions/loglogistic.py`. -/

namespace Mpsci.loglogistic

open Classical Num common

/-- `loglogistic.py` 23-28. -/
noncomputable def validateParams (beta scale : Num) : M (Num × Num) :=
  if beta ≤ 0 then .error .valueError
  else if scale ≤ 0 then .error .valueError
  else .ok (beta, scale)

/-- `loglogistic.py` 31-36. -/
noncomputable def support (beta scale : Num) : M (Num × Num) := do
  let _ ← validateParams beta scale
  return (0, pinf)

/-- `loglogistic.py` 39-51. -/
noncomputable def pdf (x beta scale : Num) : M Num := do
  let (beta, scale) ← validateParams beta scale
  if x ≤ 0 then
    return 0
  else
    let z ← x /. scale
    (← beta /. scale) * (← mp.power z (beta - 1)) /. mp.ipow (1 + (← mp.power z beta)) 2

/-- `loglogistic.py` 54-67. -/
noncomputable def logpdf (x beta scale : Num) : M Num := do
  let (beta, scale) ← validateParams beta scale
  if x ≤ 0 then
    return ninf
  else
    let z ← x /. scale
    return (← mp.log beta) - (← mp.log scale) + (beta - 1) * (← mp.log z)
      - 2 * (← mp.log1p (← mp.power z beta))

/-- `loglogistic.py` 70-82. -/
noncomputable def cdf (x beta scale : Num) : M Num := do
  let (beta, scale) ← validateParams beta scale
  if x ≤ 0 then
    return 0
  else
    let z ← x /. scale
    1 /. (1 + (← mp.power z (-beta)))

/-- `loglogistic.py` 85-98. -/
noncomputable def sf (x beta scale : Num) : M Num := do
  let (beta, scale) ← validateParams beta scale
  if x ≤ 0 then
    return 1
  else
    let z ← x /. scale
    let r ← mp.power z (-beta)
    r /. (1 + r)

/-- `loglogistic.py` 101-114. -/
noncomputable def invcdf (p beta scale : Num) : M Num := do
  let (beta, scale) ← validateParams beta scale
  let p ← validateP p
  if p =. 1 then
    return pinf
  else
    return scale * (← mp.power (← p /. (1 - p)) (← 1 /. beta))

/-- `loglogistic.py` 117-127. -/
noncomputable def invsf (p beta scale : Num) : M Num := do
  let (beta, scale) ← validateParams beta scale
  let p ← validateP p
  if p =. 0 then
    return pinf
  else
    return scale * (← mp.power (← (1 - p) /. p) (← 1 /. beta))

/-- `loglogistic.py` 130-140. -/
noncomputable def mean (beta scale : Num) : M Num := do
  let (beta, scale) ← validateParams beta scale
  if beta > 1 then
    scale /. mp.sincpi (← 1 /. beta)
  else
    return nan

/-- `loglogistic.py` 143-153. -/
noncomputable def var (beta scale : Num) : M Num := do
  let (beta, scale) ← validateParams beta scale
  if beta > 2 then
    return mp.ipow scale 2 * ((← 1 /. mp.sincpi (← 2 /. beta)) - (← 1 /. mp.ipow (mp.sincpi (← 1 /. beta)) 2))
  else
    return nan

/-- `loglogistic.py` 156-170. -/
noncomputable def noncentralMoment (n : ℤ) (beta scale : Num) : M Num := do
  let n ← validateMomentN n
  let (beta, scale) ← validateParams beta scale
  if fin n ≥ beta then
    return nan
  mp.ipow scale n /. mp.sinc (← mp.pi * fin n /. beta)

end Mpsci.loglogistic
