import Verif.Base.NormalErf
import Verif.Model.Common

/-! Model of `mpsci/distributions/slash.py`. Squares are written as products. -/

namespace Mpsci.slash

open Classical Num common

/-- `slash.py` 24-44; the threshold is the decimal `9e-6`. -/
noncomputable def delta (x : Num) : M Num := do
  let x2 := x * x
  if x2 < fin (9 / 1000000) then
    (-mp.expm1 (← (-x2) /. 2)) /. (← mp.sqrt (2 * mp.pi))
  else
    return (← mp.npdf 0) - (← mp.npdf x)

/-- `slash.py` 47-55. -/
noncomputable def pdf (x : Num) : M Num := do
  if Num.eq x 0 then 1 /. (2 * (← mp.sqrt (2 * mp.pi)))
  else (← delta x) /. (x * x)

/-- `slash.py` 58-67; `mp.absmax` of a number is its absolute value. -/
noncomputable def logpdf (x : Num) : M Num := do
  if Num.eq x 0 then mp.log (← pdf 0)
  else
    let d ← delta x
    return (← mp.log d) - 2 * (← mp.log (Num.abs x))

/-- `slash.py` 70-79. -/
noncomputable def cdf (x : Num) : M Num := do
  if Num.eq x 0 then 1 /. 2
  else
    let d ← delta x
    return mp.ncdf x - (← d /. x)

/-- `slash.py` 82-91. -/
noncomputable def sf (x : Num) : M Num := do
  if Num.eq x 0 then 1 /. 2
  else
    let d ← delta x
    return mp.ncdf (-x) + (← d /. x)

/-- `slash.py` 94-116; `findroot` is `mp.findroot` with its default solver. -/
noncomputable def invcdf (findroot : (Num → M Num) → Num → M Num) (p : Num) : M Num := do
  let npdf0 ← mp.npdf 0
  let p ← validateP p
  if Num.eq p 0 then return ninf
  if Num.eq p 1 then return pinf
  if Num.eq p (fin (1 / 2)) then return 0
  let x0 ← if p > fin (1 / 2) then npdf0 /. (1 - p) else (-npdf0) /. p
  findroot (fun x => do return (← cdf x) - p) x0

/-- `slash.py` 119-139. -/
noncomputable def invsf (findroot : (Num → M Num) → Num → M Num) (p : Num) : M Num := do
  let npdf0 ← mp.npdf 0
  let p ← validateP p
  if Num.eq p 0 then return pinf
  if Num.eq p 1 then return ninf
  if Num.eq p (fin (1 / 2)) then return 0
  let x0 ← if p > fin (1 / 2) then (-npdf0) /. (1 - p) else npdf0 /. p
  findroot (fun x => do return (← sf x) - p) x0

/-- `slash.py` 142-144. -/
noncomputable def support : Num × Num := (ninf, pinf)

/-- `slash.py` 147-153. -/
noncomputable def mean : M Num := .ok 0

/-- `slash.py` 156-162. -/
noncomputable def mode : M Num := .ok 0

end Mpsci.slash
