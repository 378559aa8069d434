import Verif.Base.Const
import Verif.Base.Discrete
import Verif.Model.Common
import Verif.Model.Fun.Powm1

/-! Model of `mpsci/distributions/genextreme.py`. -/

namespace Mpsci.genextreme

open Classical Num common

/-- `genextreme.py` 27-30. -/
noncomputable def validateParams (xi mu sigma : Num) : M (Num × Num × Num) :=
  if sigma ≤ 0 then .error .valueError else .ok (xi, mu, sigma)

/-- `genextreme.py` 34-55. -/
noncomputable def pdf (x xi : Num) (mu : Num := 0) (sigma : Num := 1) : M Num := do
  let (xi, mu, sigma) ← validateParams xi mu sigma
  if ¬ (xi =. 0) then
    let bound := mu - (← sigma /. xi)
    if 0 < xi ∧ x ≤ bound then return 0
    if xi < 0 ∧ bound < x then return 0
  let z ← (x - mu) /. sigma
  let t ← if ¬ (xi =. 0) then mp.power (1 + z * xi) (← (-1) /. xi) else pure (mp.exp (-z))
  ((← mp.power t (xi + 1)) * mp.exp (-t)) /. sigma

/-- `genextreme.py` 59-82. -/
noncomputable def logpdf (x xi : Num) (mu : Num := 0) (sigma : Num := 1) : M Num := do
  let (xi, mu, sigma) ← validateParams xi mu sigma
  if ¬ (xi =. 0) then
    let bound := mu - (← sigma /. xi)
    if 0 < xi ∧ x ≤ bound then return ninf
    if xi < 0 ∧ bound ≤ x then return ninf
  let z ← (x - mu) /. sigma
  let (t, logt) ← if ¬ (xi =. 0) then
      (do return (← mp.power (1 + z * xi) (← (-1) /. xi), ← (-(← mp.log1p (z * xi))) /. xi))
    else pure (mp.exp (-z), -z)
  return (xi + 1) * logt - t - (← mp.log sigma)

/-- `genextreme.py` 94-111. -/
noncomputable def logcdf (x xi : Num) (mu : Num := 0) (sigma : Num := 1) : M Num := do
  let (xi, mu, sigma) ← validateParams xi mu sigma
  if ¬ (xi =. 0) then
    let bound := mu - (← sigma /. xi)
    if 0 < xi ∧ x ≤ bound then return ninf
    if xi < 0 ∧ bound ≤ x then return 0
  let t ← if ¬ (xi =. 0) then mp.power (1 + (← (x - mu) /. sigma) * xi) (← (-1) /. xi)
    else (do return mp.exp (← (-(x - mu)) /. sigma))
  return -t

/-- `genextreme.py` 86-90. -/
noncomputable def cdf (x xi : Num) (mu : Num := 0) (sigma : Num := 1) : M Num := do
  return mp.exp (← logcdf x xi mu sigma)

/-- `genextreme.py` 115-125. -/
noncomputable def invcdf (p xi : Num) (mu : Num := 0) (sigma : Num := 1) : M Num := do
  let p ← validateP p
  let (xi, mu, sigma) ← validateParams xi mu sigma
  if ¬ (xi =. 0) then
    return mu + (← sigma /. xi) * (← mp.powm1 (-(← mp.log p)) (-xi))
  else
    return mu - sigma * (← mp.log (-(← mp.log p)))

/-- `genextreme.py` 129-133. -/
noncomputable def sf (x xi : Num) (mu : Num := 0) (sigma : Num := 1) : M Num := do
  return -(mp.expm1 (← logcdf x xi mu sigma))

/-- `genextreme.py` 137-147. The `.real` of a real number is the number itself. -/
noncomputable def logsf (x xi : Num) (mu : Num := 0) (sigma : Num := 1) : M Num := do
  let med ← invcdf (fin (1 / 2)) xi mu sigma
  if med < x then
    mp.log (← sf x xi mu sigma)
  else
    mp.log1p (-(← cdf x xi mu sigma))

/-- `genextreme.py` 151-161. -/
noncomputable def invsf (p xi : Num) (mu : Num := 0) (sigma : Num := 1) : M Num := do
  let p ← validateP p
  let (xi, mu, sigma) ← validateParams xi mu sigma
  if ¬ (xi =. 0) then
    return mu + (← sigma /. xi) * (← mp.powm1 (-(← mp.log1p (-p))) (-xi))
  else
    return mu - sigma * (← mp.log (-(← mp.log1p (-p))))

/-- `genextreme.py` 165-184. -/
noncomputable def support (xi : Num) (mu : Num := 0) (sigma : Num := 1) : M (Num × Num) := do
  let (xi, mu, sigma) ← validateParams xi mu sigma
  if ¬ (xi =. 0) then
    let bound := mu - (← sigma /. xi)
    if 0 < xi then return (bound, pinf) else return (ninf, bound)
  else
    return (ninf, pinf)

/-- `genextreme.py` 188-199. -/
noncomputable def mean (xi : Num) (mu : Num := 0) (sigma : Num := 1) : M Num := do
  let (xi, mu, sigma) ← validateParams xi mu sigma
  if xi =. 0 then
    return mu + sigma * mp.euler
  else if xi < 1 then
    let g1 ← mp.gamma (1 - xi)
    return mu + (← (sigma * (g1 - 1)) /. xi)
  else
    return pinf

/-- `genextreme.py` 203-219. -/
noncomputable def mode (xi : Num) (mu : Num := 0) (sigma : Num := 1) : M Num := do
  let (xi, mu, sigma) ← validateParams xi mu sigma
  if xi < (-1) then
    return mu - (← sigma /. xi)
  else if xi =. 0 then
    return mu
  else
    return mu + (← (sigma * (← fun_.pow1pm1 xi (-xi))) /. xi)

/-- `genextreme.py` 223-235. -/
noncomputable def var (xi : Num) (mu : Num := 0) (sigma : Num := 1) : M Num := do
  let (xi, _, sigma) ← validateParams xi mu sigma
  if xi =. 0 then
    (mp.ipow sigma 2 * mp.ipow mp.pi 2) /. 6
  else if 2 * xi < 1 then
    let g1 ← mp.gamma (1 - xi)
    let g2 ← mp.gamma (1 - 2 * xi)
    (mp.ipow sigma 2 * (g2 - mp.ipow g1 2)) /. mp.ipow xi 2
  else
    return pinf

/-- `genextreme.py` 239-254. -/
noncomputable def skewness (xi : Num) (mu : Num := 0) (sigma : Num := 1) : M Num := do
  let (xi, _, _) ← validateParams xi mu sigma
  if xi =. 0 then
    (12 * (← mp.sqrt 6) * mp.zeta 3) /. mp.ipow mp.pi 3
  else if 3 * xi < 1 then
    let g1 ← mp.gamma (1 - xi)
    let g2 ← mp.gamma (1 - 2 * xi)
    let g3 ← mp.gamma (1 - 3 * xi)
    let num := g3 - 3 * g2 * g1 + 2 * mp.ipow g1 3
    let den ← mp.power (g2 - mp.ipow g1 2) (fin (3 / 2))
    (mp.sign xi * num) /. den
  else
    return pinf

/-- `genextreme.py` 258-274. -/
noncomputable def kurtosis (xi : Num) (mu : Num := 0) (sigma : Num := 1) : M Num := do
  let (xi, _, _) ← validateParams xi mu sigma
  if xi =. 0 then
    12 /. 5
  else if 4 * xi < 1 then
    let g1 ← mp.gamma (1 - xi)
    let g2 ← mp.gamma (1 - 2 * xi)
    let g3 ← mp.gamma (1 - 3 * xi)
    let g4 ← mp.gamma (1 - 4 * xi)
    let num := g4 - 4 * g3 * g1 - 3 * mp.ipow g2 2 + 12 * g2 * mp.ipow g1 2 - 6 * mp.ipow g1 4
    let den := mp.ipow (g2 - mp.ipow g1 2) 2
    num /. den
  else
    return pinf

/-- `genextreme.py` 278-283. -/
noncomputable def entropy (xi : Num) (mu : Num := 0) (sigma : Num := 1) : M Num := do
  let (xi, _, sigma) ← validateParams xi mu sigma
  return (← mp.log sigma) + mp.euler * (xi + 1) + 1

/-- `genextreme.py` 287-295. -/
noncomputable def standardNoncentralMoment (n : ℕ) (xi : Num) : M Num := do
  if n = 0 then
    return 1
  else if xi < (← 1 /. fin n) then
    let v ← (List.range (n + 1)).mapM fun (k : ℕ) => do
      return (← mp.binomial n k) * mp.ipow (-1) k * (← mp.gamma (1 - xi * fin k))
    mp.fsum v /. mp.ipow (-xi) n
  else
    return nan

/-- `genextreme.py` 299-318. `mp.power` with an integer exponent is the integer power. -/
noncomputable def noncentralMoment (n : ℤ) (xi : Num) (mu : Num := 0) (sigma : Num := 1) : M Num := do
  let n ← validateMomentN n
  let (xi, mu, sigma) ← validateParams xi mu sigma
  if n = 0 then
    return 1
  else if (← 1 /. fin n) ≤ xi then
    return nan
  else
    let terms ← (List.range (n + 1)).mapM fun (k : ℕ) => do
      return (← mp.binomial n k) * mp.ipow mu (n - k) * mp.ipow sigma k *
        (← standardNoncentralMoment k xi)
    return mp.fsum terms

end Mpsci.genextreme
