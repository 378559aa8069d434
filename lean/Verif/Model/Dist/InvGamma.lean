import Verif.Model.Common
import Verif.Model.Common.Newton
import Verif.Base.GammaInc
import Verif.Base.Discrete

/-! Model of `mpsci/distributions/invgamma.py`. -/

namespace Mpsci.invgamma

open Classical Num common

/-- `invgamma.py` 26-34. -/
noncomputable def validateParams (a loc scale : Num) : M (Num × Num × Num) :=
  if a ≤ 0 then .error .valueError
  else if scale ≤ 0 then .error .valueError
  else .ok (a, loc, scale)

/-- `invgamma.py` 50-60. -/
noncomputable def logpdf (x a : Num) (loc : Num := 0) (scale : Num := 1) : M Num := do
  let (a, loc, scale) ← validateParams a loc scale
  if x ≤ loc then
    return ninf
  else
    let z ← (x - loc) /. scale
    return -(← mp.log scale) - (← mp.loggamma a) - (a + 1) * (← mp.log z) - (← 1 /. z)

/-- `invgamma.py` 38-46. -/
noncomputable def pdf (x a : Num) (loc : Num := 0) (scale : Num := 1) : M Num := do
  let (a, loc, scale) ← validateParams a loc scale
  if x ≤ loc then
    return 0
  else
    return mp.exp (← logpdf x a loc scale)

/-- `invgamma.py` 64-73. -/
noncomputable def cdf (x a : Num) (loc : Num := 0) (scale : Num := 1) : M Num := do
  let (a, loc, scale) ← validateParams a loc scale
  if x ≤ loc then
    return 0
  else
    let z ← (x - loc) /. scale
    mp.gammaincReg a (← 1 /. z) pinf

/-- `invgamma.py` 99-108. -/
noncomputable def sf (x a : Num) (loc : Num := 0) (scale : Num := 1) : M Num := do
  let (a, loc, scale) ← validateParams a loc scale
  if x ≤ loc then
    return 1
  else
    let z ← (x - loc) /. scale
    mp.gammaincReg a 0 (← 1 /. z)

/-- `invgamma.py` 153-158. -/
noncomputable def mode (a : Num) (loc : Num := 0) (scale : Num := 1) : M Num := do
  let (a, loc, scale) ← validateParams a loc scale
  return loc + (← scale /. (a + 1))

/-- `invgamma.py` 91. -/
noncomputable def cdfStep (p a loc scale x0 : Num) : M Num := do
  return x0 + (← (p - (← cdf x0 a loc scale)) /. (← pdf x0 a loc scale))

/-- `invgamma.py` 77-95; `eps` is the tolerance of `mp.almosteq`. -/
noncomputable def invcdf (eps : ℝ) (fuel : ℕ) (p a : Num) (loc : Num := 0) (scale : Num := 1) : M Num := do
  let (a, loc, scale) ← validateParams a loc scale
  let p ← validateP p
  if p =. 0 then
    return loc
  else if p =. 1 then
    return pinf
  else
    let x0 ← mode a loc scale
    newtonLoop eps fuel (cdfStep p a loc scale) x0

/-- `invgamma.py` 125. -/
noncomputable def sfStep (p a loc scale x0 : Num) : M Num := do
  return x0 - (← (p - (← sf x0 a loc scale)) /. (← pdf x0 a loc scale))

/-- `invgamma.py` 112-129. -/
noncomputable def invsf (eps : ℝ) (fuel : ℕ) (p a : Num) (loc : Num := 0) (scale : Num := 1) : M Num := do
  let (a, loc, scale) ← validateParams a loc scale
  let p ← validateP p
  if p =. 0 then
    return pinf
  else if p =. 1 then
    return loc
  else
    let x0 ← mode a loc scale
    newtonLoop eps fuel (sfStep p a loc scale) x0

/-- `invgamma.py` 133-138. -/
noncomputable def support (a : Num) (loc : Num := 0) (scale : Num := 1) : M (Num × Num) := do
  let (_, loc, _) ← validateParams a loc scale
  return (loc, pinf)

/-- `invgamma.py` 142-149. -/
noncomputable def mean (a : Num) (loc : Num := 0) (scale : Num := 1) : M Num := do
  let (a, loc, scale) ← validateParams a loc scale
  if 1 < a then
    return loc + (← scale /. (a - 1))
  else
    return nan

/-- `invgamma.py` 162-169. -/
noncomputable def var (a : Num) (loc : Num := 0) (scale : Num := 1) : M Num := do
  let (a, _, scale) ← validateParams a loc scale
  if 2 < a then
    (← mp.ipow scale 2 /. mp.ipow (a - 1) 2) /. (a - 2)
  else
    return nan

/-- `invgamma.py` 173-178. -/
noncomputable def skewness (a : Num) (loc : Num := 0) (scale : Num := 1) : M Num := do
  let (a, _, _) ← validateParams a loc scale
  if 3 < a then
    (4 * (← mp.sqrt (a - 2))) /. (a - 3)
  else
    return nan

/-- `invgamma.py` 182-187. -/
noncomputable def kurtosis (a : Num) (loc : Num := 0) (scale : Num := 1) : M Num := do
  let (a, _, _) ← validateParams a loc scale
  if 4 < a then
    (← (6 * (5 * a - 11)) /. (a - 3)) /. (a - 4)
  else
    return nan

/-- `invgamma.py` 191-196. -/
noncomputable def entropy (a : Num) (loc : Num := 0) (scale : Num := 1) : M Num := do
  let (a, _, scale) ← validateParams a loc scale
  return a + (← mp.log scale) + (← mp.loggamma a) - (1 + a) * (← mp.digamma a)

/-- `invgamma.py` 200-205. -/
noncomputable def standardNoncentralMoment (n : ℕ) (a : Num) : M Num :=
  if n = 0 then .ok 1
  else if a ≤ fin n then .ok nan
  else mp.gammaprod (a - fin n) a

/-- `invgamma.py` 209-226. `mp.power` with a nonnegative integer exponent is the integer power. -/
noncomputable def noncentralMoment (n : ℤ) (a : Num) (loc : Num := 0) (scale : Num := 1) : M Num := do
  let n ← validateMomentN n
  let (a, loc, scale) ← validateParams a loc scale
  if n = 0 then
    return 1
  else
    let terms ← (List.range (n + 1)).mapM fun (k : ℕ) => do
      return (← mp.binomial n k) * mp.ipow loc (n - k) * mp.ipow scale k * (← standardNoncentralMoment k a)
    return mp.fsum terms

end Mpsci.invgamma
