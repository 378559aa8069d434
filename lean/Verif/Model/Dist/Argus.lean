import Verif.Base.Bessel
import Verif.Base.NormalErf
import Verif.Base.Const
import Verif.Model.Common
import Verif.Model.Common.Search

/-! Model of `mpsci/distributions/argus.py`. -/

namespace Mpsci.argus

open Classical Num common

/-- `argus.py` 20-25. -/
noncomputable def validateParams (chi scale : Num) : M (Num × Num) :=
  if chi < 0 then .error .valueError
  else if scale ≤ 0 then .error .valueError
  else .ok (chi, scale)

/-- `argus.py` 28-29. -/
noncomputable def psi (chi : Num) : M Num := do
  return mp.ncdf chi - chi * (← mp.npdf chi) - fin (1 / 2)

/-- `argus.py` 45-62. -/
noncomputable def logpdf (x chi scale : Num) : M Num := do
  let (chi, scale) ← validateParams chi scale
  if x < 0 ∨ x > scale then
    return ninf
  let z ← x /. scale
  if chi =. 0 then
    return (← mp.log 3) + (← mp.log z) + fin (1 / 2) * ((← mp.log1p (-z)) + (← mp.log1p z)) - (← mp.log scale)
  else
    let t1 := 3 * (← mp.log chi) - (← (← mp.log (2 * mp.pi)) /. 2) - (← mp.log (← psi chi))
    let t2 := -(← mp.log scale) + (← mp.log z)
    let t3 ← (← mp.log1p (-(mp.ipow z 2))) /. 2
    let t4 := (← (-(mp.ipow chi 2)) /. 2) * (1 - z) * (1 + z)
    return t1 + t2 + t3 + t4

/-- `argus.py` 33-41. -/
noncomputable def pdf (x chi scale : Num) : M Num := do
  let (chi, scale) ← validateParams chi scale
  if x < 0 ∨ x > scale then
    return 0
  return mp.exp (← logpdf x chi scale)

/-- `argus.py` 66-81. -/
noncomputable def cdf (x chi scale : Num) : M Num := do
  let (chi, scale) ← validateParams chi scale
  if x < 0 then
    return 0
  if x > scale then
    return 1
  let z ← x /. scale
  if chi =. 0 then
    return -(← mp.powm1 ((1 + z) * (1 - z)) (fin (3 / 2)))
  else
    return 1 - (← (← psi (chi * (← mp.sqrt ((1 - z) * (1 + z))))) /. (← psi chi))

/-- `argus.py` 113-127. -/
noncomputable def sf (x chi scale : Num) : M Num := do
  let (chi, scale) ← validateParams chi scale
  if x < 0 then
    return 1
  if x > scale then
    return 0
  let z ← x /. scale
  if chi =. 0 then
    mp.power ((1 + z) * (1 - z)) (fin (3 / 2))
  else
    (← psi (chi * (← mp.sqrt ((1 - z) * (1 + z))))) /. (← psi chi)

/-- `argus.py` 85-109 with the default solver; `findroot` is `mp.findroot` with `solver='bisect'`. -/
noncomputable def invcdf (findroot : (Num → M Num) → Num → Num → M Num) (fuel : ℕ) (p chi scale : Num) : M Num := do
  let (chi, scale) ← validateParams chi scale
  let p ← validateP p
  bracketRootAlways findroot fuel (fun x => cdf x chi scale) p 0 scale

/-- `argus.py` 131-155, likewise. -/
noncomputable def invsf (findroot : (Num → M Num) → Num → Num → M Num) (fuel : ℕ) (p chi scale : Num) : M Num := do
  let (chi, scale) ← validateParams chi scale
  let p ← validateP p
  bracketRootAlways findroot fuel (fun x => sf x chi scale) p 0 scale

/-- `argus.py` 159-164. -/
noncomputable def support (chi scale : Num) : M (Num × Num) := do
  let (_, scale) ← validateParams chi scale
  return (0, scale)

/-- `argus.py` 168-180. -/
noncomputable def mean (chi scale : Num) : M Num := do
  let (chi, scale) ← validateParams chi scale
  if chi =. 0 then
    (scale * 3 * mp.pi) /. 16
  else
    let chi2o4 ← mp.ipow chi 2 /. 4
    let p1 := scale * (← mp.sqrt (← mp.pi /. 8))
    let p2 := chi * mp.exp (-chi2o4)
    let p3 ← mp.besseli 1 chi2o4
    (p1 * p2 * p3) /. (← psi chi)

/-- `argus.py` 184-195. -/
noncomputable def var (chi scale : Num) : M Num := do
  let (chi, scale) ← validateParams chi scale
  let mu ← mean chi scale
  if chi =. 0 then
    return mp.ipow scale 2 * (fin (2 / 5) - (← (9 * mp.ipow mp.pi 2) /. 256))
  else
    let t1 := mp.ipow scale 2 * (1 - (← 3 /. mp.ipow chi 2) + (← (chi * (← mp.npdf chi)) /. (← psi chi)))
    return t1 - mp.ipow mu 2

/-- `argus.py` 199-210. -/
noncomputable def mode (chi scale : Num) : M Num := do
  let (chi, scale) ← validateParams chi scale
  if chi =. 0 then
    scale /. (← mp.sqrt 2)
  else
    let chi2 := mp.ipow chi 2
    let p1 ← (← scale /. (← mp.sqrt 2)) /. chi
    let p2 ← mp.sqrt (chi2 - 2 + (← mp.sqrt (mp.ipow chi2 2 + 4)))
    return p1 * p2

end Mpsci.argus
