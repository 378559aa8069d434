import Verif.Model.Common
import Verif.Model.Fun.Powm1

/-! Model of `mpsci/distributions/genpareto.py`. -/

namespace Mpsci.genpareto

open Classical Num common

/-- `genpareto.py` 16-19. -/
noncomputable def validateParams (xi mu sigma : Num) : M (Num × Num × Num) :=
  if sigma ≤ 0 then .error .valueError else .ok (xi, mu, sigma)

/-- `genpareto.py` 30, 49: `(xi >= 0 and z < 0) or (xi < 0 and (z < 0 or z > -1/xi))`. The division is
evaluated only when `xi < 0` and `z >= 0`, so it cannot raise. -/
noncomputable def outside (xi z : Num) : M Prop := do
  if 0 ≤ xi ∧ z < 0 then return True
  else if xi < 0 then
    if z < 0 then return True else return ((← (-1) /. xi) < z)
  else return False

/-- `genpareto.py` 23-38. -/
noncomputable def pdf (x xi : Num) (mu : Num := 0) (sigma : Num := 1) : M Num := do
  let (xi, mu, sigma) ← validateParams xi mu sigma
  let z ← (x - mu) /. sigma
  if ← outside xi z then
    return 0
  else
    let t ← if ¬ (xi =. 0) then mp.power (1 + z * xi) (-((← 1 /. xi) + 1)) else pure (mp.exp (-z))
    t /. sigma

/-- `genpareto.py` 42-57. -/
noncomputable def logpdf (x xi : Num) (mu : Num := 0) (sigma : Num := 1) : M Num := do
  let (xi, mu, sigma) ← validateParams xi mu sigma
  let z ← (x - mu) /. sigma
  if ← outside xi z then
    return ninf
  else
    let logt ← if ¬ (xi =. 0) then
      (do return -((← 1 /. xi) + 1) * (← mp.log (1 + xi * z))) else pure (-z)
    return logt - (← mp.log sigma)

/-- `genpareto.py` 61-77. -/
noncomputable def cdf (x xi : Num) (mu : Num := 0) (sigma : Num := 1) : M Num := do
  let (xi, mu, sigma) ← validateParams xi mu sigma
  let z ← (x - mu) /. sigma
  if (0 ≤ xi ∧ z < 0) ∨ (xi < 0 ∧ z < 0) then
    return 0
  else if ← (if xi < 0 then (do return ((← (-1) /. xi) < z)) else pure False) then
    return 1
  else if ¬ (xi =. 0) then
    return -(← mp.powm1 (1 + xi * z) (← (-1) /. xi))
  else
    return -(mp.expm1 (-z))

/-- `genpareto.py` 81-101. -/
noncomputable def invcdf (p xi : Num) (mu : Num := 0) (sigma : Num := 1) : M Num := do
  let (xi, mu, sigma) ← validateParams xi mu sigma
  let p ← validateP p
  if p =. 0 then
    return mu
  else if p =. 1 then
    if 0 ≤ xi then return pinf else return mu - (← sigma /. xi)
  else if xi =. 0 then
    return mu - sigma * (← mp.log1p (-p))
  else
    return mu + (← sigma /. xi) * (← fun_.pow1pm1 (-p) (-xi))

/-- `genpareto.py` 105-121. -/
noncomputable def sf (x xi : Num) (mu : Num := 0) (sigma : Num := 1) : M Num := do
  let (xi, mu, sigma) ← validateParams xi mu sigma
  let z ← (x - mu) /. sigma
  if (0 ≤ xi ∧ z < 0) ∨ (xi < 0 ∧ z < 0) then
    return 1
  else if ← (if xi < 0 then (do return ((← (-1) /. xi) < z)) else pure False) then
    return 0
  else if ¬ (xi =. 0) then
    mp.power (1 + xi * z) (← (-1) /. xi)
  else
    return mp.exp (-z)

/-- `genpareto.py` 125-144. -/
noncomputable def invsf (p xi : Num) (mu : Num := 0) (sigma : Num := 1) : M Num := do
  let (xi, mu, sigma) ← validateParams xi mu sigma
  let p ← validateP p
  if p =. 1 then
    return mu
  else if p =. 0 then
    if 0 ≤ xi then return pinf else return mu - (← sigma /. xi)
  else if xi =. 0 then
    return mu - sigma * (← mp.log p)
  else
    return mu + (← sigma /. xi) * (← mp.powm1 p (-xi))

/-- `genpareto.py` 148-157. -/
noncomputable def support (xi : Num) (mu : Num := 0) (sigma : Num := 1) : M (Num × Num) := do
  let (xi, mu, sigma) ← validateParams xi mu sigma
  if 0 ≤ xi then return (mu, pinf) else return (mu, mu - (← sigma /. xi))

/-- `genpareto.py` 161-168. -/
noncomputable def mean (xi : Num) (mu : Num := 0) (sigma : Num := 1) : M Num := do
  let (xi, mu, sigma) ← validateParams xi mu sigma
  if xi < 1 then return mu + (← sigma /. (1 - xi)) else return nan

/-- `genpareto.py` 172-179. -/
noncomputable def var (xi : Num) (mu : Num := 0) (sigma : Num := 1) : M Num := do
  let (xi, _, sigma) ← validateParams xi mu sigma
  if xi < fin (1 / 2) then
    (← mp.ipow sigma 2 /. mp.ipow (1 - xi) 2) /. (1 - 2 * xi)
  else return nan

/-- `genpareto.py` 183-188. -/
noncomputable def entropy (xi : Num) (mu : Num := 0) (sigma : Num := 1) : M Num := do
  let (xi, _, sigma) ← validateParams xi mu sigma
  return (← mp.log sigma) + xi + 1

/-- `genpareto.py` 192-208. -/
noncomputable def nll (x : List Num) (xi : Num) (mu : Num := 0) (sigma : Num := 1) : M Num := do
  let (xi, mu, sigma) ← validateParams xi mu sigma
  let (high, strictHigh) ← if 0 ≤ xi then pure (pinf, true)
    else (do return (mu - (← sigma /. xi), false))
  let x ← validateXBounds x (some mu) (some high) false strictHigh
  return -(mp.fsum (← x.mapM fun t => logpdf t xi mu sigma))

end Mpsci.genpareto
