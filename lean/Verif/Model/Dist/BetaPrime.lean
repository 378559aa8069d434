import Verif.Model.Common
import Verif.Model.Common.Search
import Verif.Model.Fun.Powm1
import Verif.Model.Fun.Logbeta
import Verif.Base.GammaInc
import Verif.Base.Special

/-! Model of `mpsci/distributions/betaprime.py` (`nll` and `mle`, lines 299-460, are in `Model/Fit/BetaPrime.lean`). -/

namespace Mpsci.betaprime

open Classical Num common

/-- `betaprime.py` 67-76. -/
noncomputable def validateParams (a b scale : Num) : M (Num × Num × Num) :=
  if a ≤ 0 ∨ b ≤ 0 then .error .valueError
  else if scale ≤ 0 then .error .valueError
  else .ok (a, b, scale)

/-- `betaprime.py` 80-92. -/
noncomputable def pdf (x a b scale : Num) : M Num := do
  let (a, b, scale) ← validateParams a b scale
  if x < 0 then return 0
  if x =. 0 ∧ a < 1 then return pinf
  let z ← x /. scale
  (← (← (← mp.power z (a - 1)) /. (← mp.power (1 + z) (a + b))) /. (← mp.beta a b)) /. scale

/-- `betaprime.py` 96-108. -/
noncomputable def logpdf (x a b scale : Num) : M Num := do
  let (a, b, scale) ← validateParams a b scale
  if x < 0 then return ninf
  if x =. 0 ∧ a < 1 then return pinf
  let z ← x /. scale
  return (← fun_.xlogy (a - 1) z) - (← fun_.xlog1py (a + b) z) - (← fun_.logbeta a b) - (← mp.log scale)

/-- `betaprime.py` 112-127. -/
noncomputable def cdf (x a b scale : Num) : M Num := do
  let (a, b, scale) ← validateParams a b scale
  if x < 0 then return 0
  if x =. pinf then return 1
  let z ← x /. scale
  if z > 1 then
    mp.betaincReg b a (← 1 /. (1 + z)) 1
  else
    mp.betaincReg a b 0 (← z /. (1 + z))

/-- `betaprime.py` 131-146. -/
noncomputable def sf (x a b scale : Num) : M Num := do
  let (a, b, scale) ← validateParams a b scale
  if x < 0 then return 1
  if x =. pinf then return 0
  let z ← x /. scale
  if z > 1 then
    mp.betaincReg b a 0 (← 1 /. (1 + z))
  else
    mp.betaincReg a b (← z /. (1 + z)) 1

/-- `betaprime.py` 150-166. -/
noncomputable def invcdf (findroot : (Num → M Num) → Num → Num → M Num) (fuel : ℕ) (p a b scale : Num) : M Num := do
  let (a, b, scale) ← validateParams a b scale
  let p ← validateP p
  if p =. 0 then return 0
  if p =. 1 then return pinf
  bracketRoot findroot fuel (fun x => cdf x a b scale) p 0 pinf

/-- `betaprime.py` 170-186. -/
noncomputable def invsf (findroot : (Num → M Num) → Num → Num → M Num) (fuel : ℕ) (p a b scale : Num) : M Num := do
  let (a, b, scale) ← validateParams a b scale
  let p ← validateP p
  if p =. 0 then return 1
  if p =. 1 then return 0
  bracketRoot findroot fuel (fun x => sf x a b scale) p 0 pinf

/-- `betaprime.py` 189-194. -/
noncomputable def support (a b scale : Num) : M (Num × Num) := do
  let (_, _, _) ← validateParams a b scale
  return (0, pinf)

/-- `betaprime.py` 198-205. -/
noncomputable def mean (a b scale : Num) : M Num := do
  let (a, b, scale) ← validateParams a b scale
  if b ≤ 1 then return pinf
  (scale * a) /. (b - 1)

/-- `betaprime.py` 209-216. -/
noncomputable def mode (a b scale : Num) : M Num := do
  let (a, b, scale) ← validateParams a b scale
  if a < 1 then return 0
  (scale * (a - 1)) /. (b + 1)

/-- `betaprime.py` 220-227. -/
noncomputable def var (a b scale : Num) : M Num := do
  let (a, b, scale) ← validateParams a b scale
  if b ≤ 2 then return nan
  (mp.ipow scale 2 * (a * (a + b - 1))) /. ((b - 2) * mp.ipow (b - 1) 2)

/-- `betaprime.py` 231-240. -/
noncomputable def skewness (a b scale : Num) : M Num := do
  let (a, b, _) ← validateParams a b scale
  if b ≤ 3 then return nan
  let t1 ← (2 * (2 * a + b - 1)) /. (b - 3)
  let t2 ← mp.sqrt (← (b - 2) /. (a * (a + b - 1)))
  return t1 * t2

/-- `betaprime.py` 263-274. -/
noncomputable def noncentralMoment (n : ℤ) (a b scale : Num) : M Num := do
  let n ← validateMomentN n
  let (a, b, scale) ← validateParams a b scale
  if fin n ≥ b then return nan
  (mp.ipow scale n * (← mp.beta (a + fin n) (b - fin n))) /. (← mp.beta a b)

/-- `betaprime.py` 244-259. -/
noncomputable def kurtosis (a b scale : Num) : M Num := do
  let (a, b, scale) ← validateParams a b scale
  if b ≤ 4 then return nan
  let m1 ← noncentralMoment 1 a b scale
  let m2 ← noncentralMoment 2 a b scale
  let m3 ← noncentralMoment 3 a b scale
  let m4 ← noncentralMoment 4 a b scale
  let mu ← mean a b scale
  let sigma4 := mp.ipow (← var a b scale) 2
  return (← (m4 - 4 * mu * m3 + 6 * mp.ipow mu 2 * m2 - 4 * mp.ipow mu 3 * m1 + mp.ipow mu 4) /. sigma4) - 3

/-- `betaprime.py` 278-295. -/
noncomputable def entropy (a b scale : Num) : M Num := do
  let (a, b, scale) ← validateParams a b scale
  let dfn := 2 * a
  let dfd := 2 * b
  let fscale := (← a /. b) * scale
  let dfn2 ← dfn /. 2
  let dfd2 ← dfd /. 2
  let dfmean := dfn2 + dfd2
  return ((← mp.log (← dfd /. dfn)) + (← fun_.logbeta dfn2 dfd2) + (1 - dfn2) * (← mp.digamma dfn2)
    - (1 + dfd2) * (← mp.digamma dfd2) + dfmean * (← mp.digamma dfmean)) + (← mp.log fscale)

end Mpsci.betaprime
