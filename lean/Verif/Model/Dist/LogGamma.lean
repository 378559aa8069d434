import Verif.Model.Common
import Verif.Model.Common.Search
import Verif.Base.GammaInc

/-! Model of `mpsci/distributions/loggamma.py` (`nll` and `mle`, lines 230-306, are in `Model/Fit/LogGamma.lean`). -/

namespace Mpsci.loggamma

open Classical Num common

/-- `loggamma.py` 28-33. -/
noncomputable def validateParams (k theta : Num) : M (Num × Num) :=
  if k ≤ 0 then .error .valueError
  else if theta ≤ 0 then .error .valueError
  else .ok (k, theta)

/-- `loggamma.py` 37-47. -/
noncomputable def pdf (x k theta : Num) : M Num := do
  let (k, theta) ← validateParams k theta
  let z ← x /. theta
  (← mp.exp (k * z - mp.exp z) /. (← mp.gamma k)) /. theta

/-- `loggamma.py` 51-61. -/
noncomputable def logpdf (x k theta : Num) : M Num := do
  let (k, theta) ← validateParams k theta
  let z ← x /. theta
  return (k * z - mp.exp z) - (← mp.loggamma k) - (← mp.log theta)

/-- `loggamma.py` 65-75. -/
noncomputable def cdf (x k theta : Num) : M Num := do
  let (k, theta) ← validateParams k theta
  let z ← x /. theta
  mp.gammaincReg k 0 (mp.exp z)

/-- `loggamma.py` 79-96. -/
noncomputable def invcdf (findroot : (Num → M Num) → Num → Num → M Num) (fuel : ℕ) (p k theta : Num) : M Num := do
  let p ← validateP p
  if p =. 0 then return ninf
  if p =. 1 then return pinf
  let (k, theta) ← validateParams k theta
  bracketRootAlways findroot fuel (fun t => cdf t k theta) p ninf pinf

/-- `loggamma.py` 100-110. -/
noncomputable def sf (x k theta : Num) : M Num := do
  let (k, theta) ← validateParams k theta
  let z ← x /. theta
  mp.gammaincReg k (mp.exp z) pinf

/-- `loggamma.py` 114-129.  `findroot` is called with one starting point; mpmath's secant method then takes
`x0 + 0.25` for the second. -/
noncomputable def invsf (findroot : (Num → M Num) → Num → Num → M Num) (fuel : ℕ) (p k theta : Num) : M Num := do
  let p ← validateP p
  if p =. 0 then return pinf
  if p =. 1 then return ninf
  let (k, theta) ← validateParams k theta
  let (x0, _) ← findBracket fuel (fun t => sf t k theta) p ninf pinf
  findroot (fun t => do return (← sf t k theta) - p) x0 (x0 + fin (1 / 4))

/-- `loggamma.py` 133-157. -/
noncomputable def intervalProb (x1 x2 k theta : Num) : M Num := do
  if x1 > x2 then throw .valueError
  let (k, theta) ← validateParams k theta
  let z1 ← x1 /. theta
  let z2 ← x2 /. theta
  mp.gammaincReg k (mp.exp z1) (mp.exp z2)

/-- `loggamma.py` 161-169. -/
noncomputable def support (k theta : Num) : M (Num × Num) := do
  let (_, _) ← validateParams k theta
  return (ninf, pinf)

/-- `loggamma.py` 173-181. -/
noncomputable def mean (k theta : Num) : M Num := do
  let (k, theta) ← validateParams k theta
  return theta * (← mp.psi 0 k)

/-- `loggamma.py` 185-190. -/
noncomputable def mode (k theta : Num) : M Num := do
  let (k, theta) ← validateParams k theta
  return theta * (← mp.log k)

/-- `loggamma.py` 194-202. -/
noncomputable def var (k theta : Num) : M Num := do
  let (k, theta) ← validateParams k theta
  return mp.ipow theta 2 * (← mp.psi 1 k)

/-- `loggamma.py` 206-214. -/
noncomputable def skewness (k theta : Num) : M Num := do
  let (k, _) ← validateParams k theta
  (← mp.psi 2 k) /. (← mp.power (← mp.psi 1 k) (fin (3 / 2)))

/-- `loggamma.py` 218-226. -/
noncomputable def kurtosis (k theta : Num) : M Num := do
  let (k, _) ← validateParams k theta
  (← mp.psi 3 k) /. mp.ipow (← mp.psi 1 k) 2

end Mpsci.loggamma
