import Verif.Model.Common
import Verif.Model.Common.Search
import Verif.Base.GammaInc
import Verif.Base.Const

/-! Model of `mpsci/distributions/maxwell.py`. -/

namespace Mpsci.maxwell

open Classical Num common

/-- `maxwell.py` 25-28. -/
noncomputable def validateParams (loc scale : Num) : M (Num × Num) :=
  if scale ≤ 0 then .error .valueError else .ok (loc, scale)

/-- `maxwell.py` 32-42. -/
noncomputable def pdf (x : Num) (loc : Num := 0) (scale : Num := 1) : M Num := do
  let (loc, scale) ← validateParams loc scale
  if x ≤ loc then
    return 0
  else
    let z ← (x - loc) /. scale
    let z2 := mp.ipow z 2
    ((← mp.sqrt (← 2 /. mp.pi)) * z2 * mp.exp (← (-z2) /. 2)) /. scale

/-- `maxwell.py` 46-55. -/
noncomputable def logpdf (x : Num) (loc : Num := 0) (scale : Num := 1) : M Num := do
  let (loc, scale) ← validateParams loc scale
  if x ≤ loc then
    return ninf
  else
    let z ← (x - loc) /. scale
    return (← (← mp.log (← 2 /. mp.pi)) /. 2) + 2 * (← mp.log z) - (← mp.ipow z 2 /. 2) - (← mp.log scale)

/-- `maxwell.py` 59-68 (`3/2`, a float in Python, is exact). -/
noncomputable def cdf (x : Num) (loc : Num := 0) (scale : Num := 1) : M Num := do
  let (loc, scale) ← validateParams loc scale
  if x ≤ loc then
    return 0
  else
    let z ← (x - loc) /. scale
    mp.gammaincReg (fin (3 / 2)) 0 (← mp.ipow z 2 /. 2)

/-- `maxwell.py` 101-110. -/
noncomputable def sf (x : Num) (loc : Num := 0) (scale : Num := 1) : M Num := do
  let (loc, scale) ← validateParams loc scale
  if x ≤ loc then
    return 1
  else
    let z ← (x - loc) /. scale
    mp.gammaincReg (fin (3 / 2)) (← mp.ipow z 2 /. 2) pinf

/-- The last lines of `invcdf` (`maxwell.py` 88-97) and `invsf` (128-137). `findroot` is `mp.findroot` with
`solver='secant'`, `newton` with `solver='newton'`; `func2` is the function given to the latter. -/
noncomputable def search (findroot : (Num → M Num) → Num → Num → M Num) (newton : (Num → M Num) → Num → M Num) (fuel : ℕ)
    (func func2 : Num → M Num) (p : Num) : M Num := do
  let (x0, x1) ← findBracket fuel func p 0 pinf
  if x0 =. x1 then return x0
  match findroot (fun x => do return (← func x) - p) x0 x1 with
  | .ok x => return x
  | .error _ => newton (fun x => do return (← func2 x) - p) (← (x0 + x1) /. 2)

/-- `maxwell.py` 72-97. -/
noncomputable def invcdf (findroot : (Num → M Num) → Num → Num → M Num) (newton : (Num → M Num) → Num → M Num) (fuel : ℕ)
    (p : Num) (loc : Num := 0) (scale : Num := 1) : M Num := do
  let p ← validateP p
  let (loc, scale) ← validateParams loc scale
  if p =. 0 then return 0
  if p =. 1 then return pinf
  search findroot newton fuel (fun x => cdf x loc scale) (fun x => cdf x loc scale) p

/-- `maxwell.py` 114-137. -/
noncomputable def invsf (findroot : (Num → M Num) → Num → Num → M Num) (newton : (Num → M Num) → Num → M Num) (fuel : ℕ)
    (p : Num) (loc : Num := 0) (scale : Num := 1) : M Num := do
  let p ← validateP p
  let (loc, scale) ← validateParams loc scale
  if p =. 0 then return pinf
  if p =. 1 then return 0
  search findroot newton fuel (fun x => sf x loc scale) (fun x => cdf x loc scale) p

/-- `maxwell.py` 140-145. -/
noncomputable def support (loc : Num := 0) (scale : Num := 1) : M (Num × Num) := do
  let (loc, _) ← validateParams loc scale
  return (loc, pinf)

/-- `maxwell.py` 149-154. -/
noncomputable def mean (loc : Num := 0) (scale : Num := 1) : M Num := do
  let (loc, scale) ← validateParams loc scale
  return loc + scale * 2 * (← mp.sqrt (← 2 /. mp.pi))

/-- `maxwell.py` 158-163. -/
noncomputable def mode (loc : Num := 0) (scale : Num := 1) : M Num := do
  let (loc, scale) ← validateParams loc scale
  return loc + scale * (← mp.sqrt 2)

/-- `maxwell.py` 167-172. -/
noncomputable def var (loc : Num := 0) (scale : Num := 1) : M Num := do
  let (_, scale) ← validateParams loc scale
  (mp.ipow scale 2 * (3 * mp.pi - 8)) /. mp.pi

/-- `maxwell.py` 176-181. -/
noncomputable def entropy (loc : Num := 0) (scale : Num := 1) : M Num := do
  let (_, scale) ← validateParams loc scale
  return (← mp.log (scale * (← mp.sqrt (2 * mp.pi)))) + mp.euler - (← 1 /. 2)

end Mpsci.maxwell
