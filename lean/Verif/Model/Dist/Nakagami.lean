import Verif.Model.Common
import Verif.Model.Common.Search
import Verif.Base.GammaInc

/-! Model of `mpsci/distributions/nakagami.py` (`nll`, `nll_grad` and `mle`, lines 176-273, are in
`Model/Fit/Nakagami.lean`).  The higher working precision of `invcdf` and `invsf` has no counterpart in the model. -/

namespace Mpsci.nakagami

open Classical Num common

/-- `nakagami.py` 31-36. -/
noncomputable def validateParams (nu loc scale : Num) : M (Num × Num × Num) :=
  if nu ≤ 0 then .error .valueError
  else if scale ≤ 0 then .error .valueError
  else .ok (nu, loc, scale)

/-- `nakagami.py` 40-50. -/
noncomputable def pdf (x nu : Num) (loc : Num := 0) (scale : Num := 1) : M Num := do
  let (nu, loc, scale) ← validateParams nu loc scale
  if x ≤ loc then
    return 0
  else
    let z ← (x - loc) /. scale
    (← (2 * (← mp.power nu nu) * (← mp.power z (2 * nu - 1)) * mp.exp (-nu * mp.ipow z 2)) /. (← mp.gamma nu)) /. scale

/-- `nakagami.py` 54-64. -/
noncomputable def logpdf (x nu : Num) (loc : Num := 0) (scale : Num := 1) : M Num := do
  let (nu, loc, scale) ← validateParams nu loc scale
  if x ≤ loc then
    return ninf
  else
    let z ← (x - loc) /. scale
    return (← mp.log 2) + nu * (← mp.log nu) - (← mp.loggamma nu) + (2 * nu - 1) * (← mp.log z) - nu * mp.ipow z 2 - (← mp.log scale)

/-- `nakagami.py` 68-77. -/
noncomputable def cdf (x nu : Num) (loc : Num := 0) (scale : Num := 1) : M Num := do
  let (nu, loc, scale) ← validateParams nu loc scale
  if x ≤ loc then
    return 0
  else
    let z ← (x - loc) /. scale
    mp.gammaincReg nu 0 (nu * mp.ipow z 2)

/-- `nakagami.py` 81-93. -/
noncomputable def invcdf (findroot : (Num → M Num) → Num → Num → M Num) (fuel : ℕ) (p nu : Num) (loc : Num := 0)
    (scale : Num := 1) : M Num := do
  let p ← validateP p
  let (nu, loc, scale) ← validateParams nu loc scale
  bracketRootAlways findroot fuel (fun x => cdf x nu loc scale) p 0 pinf

/-- `nakagami.py` 97-106. -/
noncomputable def sf (x nu : Num) (loc : Num := 0) (scale : Num := 1) : M Num := do
  let (nu, loc, scale) ← validateParams nu loc scale
  if x ≤ loc then
    return 1
  else
    let z ← (x - loc) /. scale
    mp.gammaincReg nu (nu * mp.ipow z 2) pinf

/-- `nakagami.py` 110-122. -/
noncomputable def invsf (findroot : (Num → M Num) → Num → Num → M Num) (fuel : ℕ) (p nu : Num) (loc : Num := 0)
    (scale : Num := 1) : M Num := do
  let p ← validateP p
  let (nu, loc, scale) ← validateParams nu loc scale
  bracketRootAlways findroot fuel (fun x => sf x nu loc scale) p 0 pinf

/-- `nakagami.py` 126-131. -/
noncomputable def support (nu : Num) (loc : Num := 0) (scale : Num := 1) : M (Num × Num) := do
  let (_, loc, _) ← validateParams nu loc scale
  return (loc, pinf)

/-- `nakagami.py` 135-142. -/
noncomputable def mean (nu : Num) (loc : Num := 0) (scale : Num := 1) : M Num := do
  let (nu, loc, scale) ← validateParams nu loc scale
  let gratio ← mp.gammaprod (nu + fin (1 / 2)) nu
  let mean0 ← gratio /. (← mp.sqrt nu)
  return loc + scale * mean0

/-- `nakagami.py` 146-151. -/
noncomputable def mode (nu : Num) (loc : Num := 0) (scale : Num := 1) : M Num := do
  let (nu, loc, scale) ← validateParams nu loc scale
  return loc + scale * (← mp.sqrt (1 - (← 1 /. (2 * nu))))

/-- `nakagami.py` 155-162. -/
noncomputable def var (nu : Num) (loc : Num := 0) (scale : Num := 1) : M Num := do
  let (nu, _, scale) ← validateParams nu loc scale
  let gratio ← mp.gammaprod (nu + fin (1 / 2)) nu
  let var0 := 1 - (← mp.ipow gratio 2 /. nu)
  return mp.ipow scale 2 * var0

/-- `nakagami.py` 166-172. -/
noncomputable def entropy (nu : Num) (loc : Num := 0) (scale : Num := 1) : M Num := do
  let (nu, _, scale) ← validateParams nu loc scale
  return ((← 1 /. 2) - nu) * (← mp.digamma nu) - (← (← mp.log nu) /. 2) + nu + (← mp.loggamma nu) - (← mp.log 2) + (← mp.log scale)

end Mpsci.nakagami
