import Verif.Model.Common
import Verif.Base.Lambert

/-! Model of `mpsci/distributions/benktander2.py`. -/

namespace Mpsci.benktander2

open Classical Num common

/-- `benktander2.py` 14-19. -/
noncomputable def validateAB (a b : Num) : M (Num × Num) :=
  if a ≤ 0 then .error .valueError
  else if b ≤ 0 ∨ 1 < b then .error .valueError
  else .ok (a, b)

/-- `benktander2.py` 22-36. -/
noncomputable def pdf (x a b : Num) : M Num := do
  let (a, b) ← validateAB a b
  if x < 1 then return 0
  else
    let p1 := mp.exp ((← a /. b) * -(← mp.powm1 x b))
    let p2 ← mp.power x (b - 2)
    let p3 := a * (← mp.power x b) - b + 1
    return p1 * p2 * p3

/-- `benktander2.py` 39-53. -/
noncomputable def logpdf (x a b : Num) : M Num := do
  let (a, b) ← validateAB a b
  if x < 1 then return ninf
  else
    let t1 := (← a /. b) * -(← mp.powm1 x b)
    let t2 := (b - 2) * (← mp.log x)
    let t3 ← mp.log1p (a * (← mp.power x b) - b)
    return t1 + t2 + t3

/-- `benktander2.py` 56-68. -/
noncomputable def cdf (x a b : Num) : M Num := do
  let (a, b) ← validateAB a b
  if x < 1 then return 0
  else
    let p := (b - 1) * (← mp.log x) + (← a /. b) * -(← mp.powm1 x b)
    return -(mp.expm1 p)

/-- `benktander2.py` 71-82. -/
noncomputable def sf (x a b : Num) : M Num := do
  let (a, b) ← validateAB a b
  if x < 1 then return 1
  else return (← mp.power x (b - 1)) * mp.exp ((← a /. b) * -(← mp.powm1 x b))

/-- `benktander2.py` 97-100, 115-118: the lines shared by the inverses; `q` is `1 - p` or `p`. -/
noncomputable def solve (q a b : Num) : M Num := do
  let onemb := 1 - b
  let c ← a /. onemb
  let t := c * mp.exp c * (← mp.power q (← (-b) /. onemb))
  mp.power (← (← mp.lambertw t) /. c) (← 1 /. b)

/-- `benktander2.py` 85-100. -/
noncomputable def invcdf (p a b : Num) : M Num := do
  let p ← validateP p
  let (a, b) ← validateAB a b
  if b =. 1 then return 1 - (← (← mp.log1p (-p)) /. a)
  else solve (1 - p) a b

/-- `benktander2.py` 103-118. -/
noncomputable def invsf (p a b : Num) : M Num := do
  let p ← validateP p
  let (a, b) ← validateAB a b
  if b =. 1 then return 1 - (← (← mp.log p) /. a)
  else solve p a b

/-- `benktander2.py` 121-126. -/
noncomputable def support (a b : Num) : M (Num × Num) := do
  let _ ← validateAB a b
  return (1, pinf)

/-- `benktander2.py` 129-137. -/
noncomputable def mean (a b : Num) : M Num := do
  let (a, _) ← validateAB a b
  return 1 + (← 1 /. a)

/-- `benktander2.py` 140-146. -/
noncomputable def mode (_a _b : Num) : M Num := return 1

/-- `benktander2.py` 149-158. -/
noncomputable def var (a b : Num) : M Num := do
  let (a, b) ← validateAB a b
  let r ← a /. b
  (-b + 2 * a * mp.exp r * (← mp.expint (1 - (← 1 /. b)) r)) /. (mp.ipow a 2 * b)

/-- `benktander2.py` 161-171. -/
noncomputable def nll (x : List Num) (a b : Num) : M Num := do
  let x ← validateXBounds x (some 1) none false false
  let (a, b) ← validateAB a b
  return -(mp.fsum (← x.mapM fun t => logpdf t a b))

end Mpsci.benktander2
