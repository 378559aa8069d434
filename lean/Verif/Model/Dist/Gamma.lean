import Verif.Model.Common
import Verif.Model.Common.Search
import Verif.Base.GammaInc

/-! Model of `mpsci/distributions/gamma.py` (`mom`, `mle`, `nll` and its derivatives, lines 240-369, are in
`Model/Fit/Gamma.lean`; `_mle_se`, `_mle_ci` and `_nll_invhess_diag`, lines 372-422, in `Model/Fit/GammaSe.lean`).  The higher
working precision of `invcdf` and `invsf` has no counterpart in the model. -/

namespace Mpsci.gamma

open Classical Num common

/-- `gamma.py` 29-34. -/
noncomputable def validateParams (k scale : Num) : M (Num × Num) :=
  if k ≤ 0 then .error .valueError
  else if scale ≤ 0 then .error .valueError
  else .ok (k, scale)

/-- `gamma.py` 38-51. -/
noncomputable def pdf (x k scale : Num) : M Num := do
  let (k, scale) ← validateParams k scale
  if x < 0 then
    return 0
  else
    return (← (← mp.rgamma k) /. (← mp.power scale k)) * (← mp.power x (k - 1)) * mp.exp (← (-x) /. scale)

/-- `gamma.py` 55-64. -/
noncomputable def logpdf (x k scale : Num) : M Num := do
  let (k, scale) ← validateParams k scale
  if x < 0 then
    return ninf
  else
    return -(← mp.loggamma k) - k * (← mp.log scale) + (k - 1) * (← mp.log x) - (← x /. scale)

/-- `gamma.py` 68-81. -/
noncomputable def cdf (x k scale : Num) : M Num := do
  let (k, scale) ← validateParams k scale
  if x < 0 then
    return 0
  else
    mp.gammaincReg k 0 (← x /. scale)

/-- `gamma.py` 84-102. -/
noncomputable def invcdf (findroot : (Num → M Num) → Num → Num → M Num) (fuel : ℕ) (p k scale : Num) : M Num := do
  let (k, scale) ← validateParams k scale
  let p ← validateP p
  if p =. 0 then return 0
  if p =. 1 then return pinf
  bracketRoot findroot fuel (fun x => cdf x k scale) p 0 pinf (some 16)

/-- `gamma.py` 106-114. -/
noncomputable def sf (x k scale : Num) : M Num := do
  let (k, scale) ← validateParams k scale
  if x < 0 then
    return 1
  else
    mp.gammaincReg k (← x /. scale) pinf

/-- `gamma.py` 117-135. -/
noncomputable def invsf (findroot : (Num → M Num) → Num → Num → M Num) (fuel : ℕ) (p k scale : Num) : M Num := do
  let (k, scale) ← validateParams k scale
  let p ← validateP p
  if p =. 0 then return pinf
  if p =. 1 then return 0
  bracketRoot findroot fuel (fun x => sf x k scale) p 0 pinf (some 16)

/-- `gamma.py` 139-157. -/
noncomputable def intervalProb (x1 x2 k scale : Num) : M Num := do
  let (k, scale) ← validateParams k scale
  if x1 > x2 then throw .valueError
  mp.gammaincReg k (← x1 /. scale) (← x2 /. scale)

/-- `gamma.py` 161-166. -/
noncomputable def support (k scale : Num) : M (Num × Num) := do
  let (_, _) ← validateParams k scale
  return (0, pinf)

/-- `gamma.py` 170-175. -/
noncomputable def mean (k scale : Num) : M Num := do
  let (k, scale) ← validateParams k scale
  return k * scale

/-- `gamma.py` 179-186. -/
noncomputable def mode (k scale : Num) : M Num := do
  let (k, scale) ← validateParams k scale
  if k ≤ 1 then
    return 0
  else
    return scale * (k - 1)

/-- `gamma.py` 190-195. -/
noncomputable def var (k scale : Num) : M Num := do
  let (k, scale) ← validateParams k scale
  return k * mp.ipow scale 2

/-- `gamma.py` 199-204. -/
noncomputable def skewness (k scale : Num) : M Num := do
  let (k, _) ← validateParams k scale
  2 /. (← mp.sqrt k)

/-- `gamma.py` 208-213. -/
noncomputable def kurtosis (k scale : Num) : M Num := do
  let (k, _) ← validateParams k scale
  6 /. k

/-- `gamma.py` 217-227. -/
noncomputable def noncentralMoment (n : ℤ) (k scale : Num) : M Num := do
  let n ← validateMomentN n
  let (k, scale) ← validateParams k scale
  if n = 0 then
    return 1
  else
    return mp.ipow scale n * (← mp.gammaprod (k + fin n) k)

/-- `gamma.py` 231-236. -/
noncomputable def entropy (k scale : Num) : M Num := do
  let (k, scale) ← validateParams k scale
  return k + (← mp.log scale) + (← mp.loggamma k) + (1 - k) * (← mp.psi 0 k)

end Mpsci.gamma
