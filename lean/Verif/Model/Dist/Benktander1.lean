import Verif.Model.Common
import Verif.Base.Erf

/-! Model of `mpsci/distributions/benktander1.py` (`mle` is in Model/Fit/Hypsecant). `mp.findroot` is a parameter `findroot`, called
with the function and the two starting points. (The code passes `method='anderson'`; mpmath's keyword is
`solver`, so the argument has no effect and the secant method is used.) -/

namespace Mpsci.benktander1

open Classical Num common

/-- `benktander1.py` 15-22. -/
noncomputable def validateAB (a b : Num) : M (Num × Num) := do
  if a ≤ 0 then .error .valueError
  else if b ≤ 0 then .error .valueError
  else if (← (a * (a + 1)) /. 2) < b then .error .valueError
  else return (a, b)

/-- `benktander1.py` 25-38. -/
noncomputable def pdf (x a b : Num) : M Num := do
  let (a, b) ← validateAB a b
  if x < 1 then return 0
  else
    let blogx := b * (← mp.log x)
    let c := (1 + (← (2 * blogx) /. a)) * (1 + a + 2 * blogx) - (← (2 * b) /. a)
    return c * (← mp.power x (-(2 + a + blogx)))

/-- `benktander1.py` 41-54. -/
noncomputable def logpdf (x a b : Num) : M Num := do
  let (a, b) ← validateAB a b
  if x < 1 then return ninf
  else
    let blogx := b * (← mp.log x)
    let c := (1 + (← (2 * blogx) /. a)) * (1 + a + 2 * blogx) - (← (2 * b) /. a)
    return (← mp.log c) - (2 + a + blogx) * (← mp.log x)

/-- `benktander1.py` 57-69. -/
noncomputable def cdf (x a b : Num) : M Num := do
  let (a, b) ← validateAB a b
  if x < 1 then return 0
  else
    let blogx := b * (← mp.log x)
    return 1 - (1 + (← (2 * blogx) /. a)) * (← mp.power x (-(a + 1 + blogx)))

/-- `benktander1.py` 72-84. -/
noncomputable def sf (x a b : Num) : M Num := do
  let (a, b) ← validateAB a b
  if x < 1 then return 1
  else
    let blogx := b * (← mp.log x)
    return (1 + (← (2 * blogx) /. a)) * (← mp.power x (-(a + 1 + blogx)))

/-- `benktander1.py` 101-107 and 124-130: the two inverses share these lines. -/
noncomputable def solve (findroot : (Num → M Num) → Num → Num → M Num) (w a b : Num) : M Num := do
  let zlow ← (-(a + 1) + (← mp.sqrt (mp.ipow (a + 1) 2 - 4 * b * w))) /. (2 * b)
  let q := a + 1 - (← (2 * b) /. a)
  let zhigh ← (-q + (← mp.sqrt (mp.ipow q 2 - 4 * b * w))) /. (2 * b)
  let z ← findroot (fun z => do
    return (← mp.log (1 + (← (2 * b) /. a) * z)) - (a + 1 + b * z) * z - w) zlow zhigh
  return mp.exp z

/-- `benktander1.py` 87-107. -/
noncomputable def invcdf (findroot : (Num → M Num) → Num → Num → M Num) (p a b : Num) : M Num := do
  let p ← validateP p
  let (a, b) ← validateAB a b
  if p =. 0 then return 1
  else if p =. 1 then return pinf
  else
    let w ← mp.log1p (-p)
    solve findroot w a b

/-- `benktander1.py` 110-130. -/
noncomputable def invsf (findroot : (Num → M Num) → Num → Num → M Num) (p a b : Num) : M Num := do
  let p ← validateP p
  let (a, b) ← validateAB a b
  if p =. 0 then return pinf
  else if p =. 1 then return 1
  else
    let w ← mp.log p
    solve findroot w a b

/-- `benktander1.py` 133-138. -/
noncomputable def support (a b : Num) : M (Num × Num) := do
  let _ ← validateAB a b
  return (1, pinf)

/-- `benktander1.py` 141-149. -/
noncomputable def mean (a b : Num) : M Num := do
  let (a, _) ← validateAB a b
  return 1 + (← 1 /. a)

/-- `benktander1.py` 152-160. -/
noncomputable def mode (a b : Num) : M Num := do
  let (a, b) ← validateAB a b
  if (← (a * (a + 2)) /. 6) < b then
    return mp.exp (← (-(a + 1) + (← mp.sqrt (6 * b + 1))) /. (2 * b))
  else return 1

/-- `benktander1.py` 163-174. -/
noncomputable def var (a b : Num) : M Num := do
  let (a, b) ← validateAB a b
  let sb ← mp.sqrt b
  let t ← (a - 1) /. (2 * sb)
  let sqrtpi ← mp.sqrt mp.pi
  (-sb + a * mp.exp (mp.ipow t 2) * sqrtpi * mp.erfc t) /. (mp.ipow a 2 * sb)

/-- `benktander1.py` 177-187. -/
noncomputable def nll (x : List Num) (a b : Num) : M Num := do
  let x ← validateXBounds x (some 1) none false false
  let (a, b) ← validateAB a b
  return -(mp.fsum (← x.mapM fun t => logpdf t a b))

end Mpsci.benktander1
