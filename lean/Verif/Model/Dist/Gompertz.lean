import Verif.Model.Common
import Verif.Base.Expint

/-! Model of `mpsci/distributions/gompertz.py`. -/

namespace Mpsci.gompertz

open Classical Num common

/-- `gompertz.py` 27-32. -/
noncomputable def validateCScale (c scale : Num) : M (Num × Num) :=
  if c ≤ 0 then .error .valueError
  else if scale ≤ 0 then .error .valueError
  else .ok (c, scale)

/-- `gompertz.py` 35-50. -/
noncomputable def pdf (x c scale : Num) : M Num := do
  let (c, scale) ← validateCScale c scale
  if x < 0 then
    return 0
  else if x =. pinf ∨ x =. ninf then
    return 0
  else
    let z ← x /. scale
    c * mp.exp (c + z - c * mp.exp z) /. scale

/-- `gompertz.py` 53-68. -/
noncomputable def logpdf (x c scale : Num) : M Num := do
  let (c, scale) ← validateCScale c scale
  if x < 0 then
    return ninf
  else if x =. pinf ∨ x =. ninf then
    return ninf
  else
    let z ← x /. scale
    return (← mp.log c) + c + z - c * mp.exp z - (← mp.log scale)

/-- `gompertz.py` 71-84. -/
noncomputable def cdf (x c scale : Num) : M Num := do
  let (c, scale) ← validateCScale c scale
  if x ≤ 0 then
    return 0
  else
    let z ← x /. scale
    return -mp.expm1 (-c * mp.expm1 z)

/-- `gompertz.py` 87-101. -/
noncomputable def invcdf (p c scale : Num) : M Num := do
  let p ← validateP p
  let (c, scale) ← validateCScale c scale
  if p =. 0 then
    return 0
  else if p =. 1 then
    return pinf
  else
    return scale * (← mp.log1p (← -(← mp.log1p (-p)) /. c))

/-- `gompertz.py` 104-117. -/
noncomputable def sf (x c scale : Num) : M Num := do
  let (c, scale) ← validateCScale c scale
  if x ≤ 0 then
    return 1
  else
    let z ← x /. scale
    return mp.exp (-c * mp.expm1 z)

/-- `gompertz.py` 120-134. -/
noncomputable def invsf (p c scale : Num) : M Num := do
  let p ← validateP p
  let (c, scale) ← validateCScale c scale
  if p =. 0 then
    return pinf
  else if p =. 1 then
    return 0
  else
    return scale * (← mp.log1p (← -(← mp.log p) /. c))

/-- `gompertz.py` 137-143. -/
noncomputable def support (c scale : Num) : M (Num × Num) := do
  let _ ← validateCScale c scale
  return (0, pinf)

/-- `gompertz.py` 158-168. -/
noncomputable def mode (c scale : Num) : M Num := do
  let (c, scale) ← validateCScale c scale
  if c ≥ 1 then
    return 0
  else
    return -scale * (← mp.log c)

/-- `gompertz.py` 146-155. -/
noncomputable def mean (c scale : Num) : M Num := do
  let (c, scale) ← validateCScale c scale
  return scale * mp.exp c * (← mp.e1 c)

/-- `gompertz.py` 171-184. -/
noncomputable def var (c scale : Num) : M Num := do
  let (c, scale) ← validateCScale c scale
  let lnc ← mp.log c
  let expc := mp.exp c
  return mp.ipow scale 2 * expc * (-2 * c * (← mp.hyp3f3 (-c)) + mp.ipow mp.euler 2 + (← mp.ipow mp.pi 2 /. 6)
    + 2 * mp.euler * lnc + mp.ipow lnc 2 - expc * mp.ipow (← mp.e1 c) 2)

/-- `gompertz.py` 187-196. -/
noncomputable def entropy (c scale : Num) : M Num := do
  let (c, scale) ← validateCScale c scale
  return 1 - (← mp.log c) - mp.exp c * (← mp.e1 c) + (← mp.log scale)

end Mpsci.gompertz
