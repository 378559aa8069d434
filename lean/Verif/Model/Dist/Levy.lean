import Verif.Model.Common
import Verif.Base.NormalErf
import Verif.Base.Const

/-! Model of `mpsci/distributions/levy.py`. -/

namespace Mpsci.levy

open Classical Num common

/-- `levy.py` 25-26. -/
noncomputable def erfcinv (y : Num) : M Num := mp.erfinv (1 - y)

/-- `levy.py` 30-41. -/
noncomputable def logpdf (x : Num) (mu : Num := 0) (sigma : Num := 1) : M Num := do
  let (mu, sigma) ← validateLocScale mu sigma
  if x ≤ mu then
    return ninf
  else
    let t1 := (← (← mp.log sigma) /. 2) - (← (← mp.log (2 * mp.pi)) /. 2)
    let t2 ← (-sigma) /. (2 * (x - mu))
    let t3 ← ((← mp.log (x - mu)) * 3) /. 2
    return t1 + t2 - t3

/-- `levy.py` 45-49. -/
noncomputable def pdf (x : Num) (mu : Num := 0) (sigma : Num := 1) : M Num := do
  return mp.exp (← logpdf x mu sigma)

/-- `levy.py` 53-62. -/
noncomputable def cdf (x : Num) (mu : Num := 0) (sigma : Num := 1) : M Num := do
  let (mu, sigma) ← validateLocScale mu sigma
  if x ≤ mu then
    return 0
  else
    let arg ← mp.sqrt (← sigma /. (2 * (x - mu)))
    return mp.erfc arg

/-- `levy.py` 66-72. -/
noncomputable def invcdf (p : Num) (mu : Num := 0) (sigma : Num := 1) : M Num := do
  let p ← validateP p
  let (mu, sigma) ← validateLocScale mu sigma
  return mu + (← sigma /. (2 * mp.ipow (← erfcinv p) 2))

/-- `levy.py` 76-85. -/
noncomputable def sf (x : Num) (mu : Num := 0) (sigma : Num := 1) : M Num := do
  let (mu, sigma) ← validateLocScale mu sigma
  if x ≤ mu then
    return 1
  else
    let arg ← mp.sqrt (← sigma /. (2 * (x - mu)))
    return mp.erf arg

/-- `levy.py` 89-95. -/
noncomputable def invsf (p : Num) (mu : Num := 0) (sigma : Num := 1) : M Num := do
  let p ← validateP p
  let (mu, sigma) ← validateLocScale mu sigma
  return mu + (← sigma /. (2 * mp.ipow (← mp.erfinv p) 2))

/-- `levy.py` 98-104; the first parameter is called `p` and checked to be a probability. -/
noncomputable def support (p : Num) (mu : Num := 0) (sigma : Num := 1) : M (Num × Num) := do
  let _ ← validateP p
  let (mu, _) ← validateLocScale mu sigma
  return (mu, pinf)

end Mpsci.levy
