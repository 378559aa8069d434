import Verif.Model.Dist.Normal
import Verif.Model.Fun.Log
import Verif.Base.Loop

/-! Model of `mpsci/distributions/folded_normal.py`. Squares are written as products. -/

namespace Mpsci.folded_normal

open Classical Num common

/-- `folded_normal.py` 29-32. -/
noncomputable def validateSigma (sigma : Num) : M Num := if sigma ≤ 0 then .error .valueError else .ok sigma

/-- `folded_normal.py` 35-45. -/
noncomputable def pdf (x mu sigma : Num) : M Num := do
  let sigma ← validateSigma sigma
  if x < 0 then return 0
  return (← mp.npdf x mu sigma) + (← mp.npdf (-x) mu sigma)

/-- `folded_normal.py` 48-60. -/
noncomputable def logpdf (x mu sigma : Num) : M Num := do
  let sigma ← validateSigma sigma
  if x < 0 then return ninf
  let logp1 ← normal.logpdf x mu sigma
  let logp2 ← normal.logpdf (-x) mu sigma
  fun_.logsumexp [logp1, logp2]

/-- `folded_normal.py` 63-73. -/
noncomputable def cdf (x mu sigma : Num) : M Num := do
  let sigma ← validateSigma sigma
  if x < 0 then return 0
  return (← mp.ncdf3 x mu sigma) - (← mp.ncdf3 (-x) mu sigma)

/-- `folded_normal.py` 76-86. -/
noncomputable def sf (x mu sigma : Num) : M Num := do
  let sigma ← validateSigma sigma
  if x < 0 then return 1
  return (← mp.ncdf3 (-x) (-mu) sigma) + (← mp.ncdf3 (-x) mu sigma)

/-- `folded_normal.py` 89-95. -/
noncomputable def support (_mu sigma : Num) : M (Num × Num) := do
  let _ ← validateSigma sigma
  return (0, pinf)

/-- `folded_normal.py` 98-107. -/
noncomputable def mean (mu sigma : Num) : M Num := do
  let sigma ← validateSigma sigma
  let r ← mu /. sigma
  return sigma * (← mp.sqrt (← 2 /. mp.pi)) * mp.exp (← (-(r * r)) /. 2) + mu * (1 - 2 * mp.ncdf (-r))

/-- `folded_normal.py` 110-111. -/
noncomputable def modeEq (t r : Num) : Num := t - r * mp.tanh (r * t)

/-- `folded_normal.py` 114-118. -/
noncomputable def modeGetstart (fuel : ℕ) (r : Num) : M Num :=
  loop (fun x => .ok (modeEq x r ≥ 0)) (fun x => x /. 2) fuel r

/-- `folded_normal.py` 121-139; `findroot` is `mp.findroot` with its default solver. -/
noncomputable def mode (findroot : (Num → M Num) → Num → M Num) (fuel : ℕ) (mu sigma : Num) : M Num := do
  let mu := Num.abs mu
  let sigma ← validateSigma sigma
  if mu ≤ sigma then return 0
  let r ← mu /. sigma
  let t0 ← if r < fin (5 / 4) then modeGetstart fuel r else .ok r
  let t ← findroot (fun s => .ok (s - r * mp.tanh (r * s))) t0
  return sigma * t

/-- `folded_normal.py` 142-149. -/
noncomputable def var (mu sigma : Num) : M Num := do
  let sigma ← validateSigma sigma
  let m ← mean mu sigma
  return mu * mu + sigma * sigma - m * m

end Mpsci.folded_normal
