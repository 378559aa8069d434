import Verif.Model.Common
import Verif.Base.Const
import Verif.Base.Discrete

/-! Models of `mpsci/distributions/_weibull_common.py`, `weibull_min.py` and `weibull_max.py`. -/

namespace Mpsci.weibull_common

open Classical Num

/-- `_weibull_common.py` 8-16. -/
noncomputable def validateParams (k loc scale : Num) : M (Num × Num × Num) :=
  if k ≤ 0 then .error .valueError
  else if scale ≤ 0 then .error .valueError
  else .ok (k, loc, scale)

end Mpsci.weibull_common

namespace Mpsci.weibull_min

open Classical Num weibull_common common

/-- `weibull_min.py` 61-82. -/
noncomputable def logpdf (x k loc scale : Num) : M Num := do
  let (k, loc, scale) ← validateParams k loc scale
  if x =. loc then
    if k < 1 then return pinf
    else if k =. 1 then return -(← mp.log scale)
    else return ninf
  else if x < loc then return ninf
  else
    let z ← (x - loc) /. scale
    return (← mp.log k) - k * (← mp.log scale) + (k - 1) * (← mp.log (x - loc)) - (← mp.power z k)

/-- `weibull_min.py` 39-58. -/
noncomputable def pdf (x k loc scale : Num) : M Num := do
  let (k, loc, scale) ← validateParams k loc scale
  if x =. loc then
    if k < 1 then return pinf
    else if k =. 1 then 1 /. scale
    else return 0
  else if x < loc then return 0
  else return mp.exp (← logpdf x k loc scale)

/-- `weibull_min.py` 85-98. -/
noncomputable def cdf (x k loc scale : Num) : M Num := do
  let (k, loc, scale) ← validateParams k loc scale
  if x ≤ loc then return 0
  else
    let z ← (x - loc) /. scale
    return -mp.expm1 (-(← mp.power z k))

/-- `weibull_min.py` 101-113. -/
noncomputable def invcdf (p k loc scale : Num) : M Num := do
  let p ← validateP p
  let (k, loc, scale) ← validateParams k loc scale
  let z ← mp.power (-(← mp.log1p (-p))) (← 1 /. k)
  return scale * z + loc

/-- `weibull_min.py` 116-129. -/
noncomputable def sf (x k loc scale : Num) : M Num := do
  let (k, loc, scale) ← validateParams k loc scale
  if x ≤ loc then return 1
  else
    let z ← (x - loc) /. scale
    return mp.exp (-(← mp.power z k))

/-- `weibull_min.py` 132-145. -/
noncomputable def invsf (p k loc scale : Num) : M Num := do
  let p ← validateP p
  let (k, loc, scale) ← validateParams k loc scale
  let z ← mp.power (-(← mp.log p)) (← 1 /. k)
  return scale * z + loc

/-- `weibull_min.py` 148-157. -/
noncomputable def support (k loc scale : Num) : M (Num × Num) := do
  let (_, loc, _) ← validateParams k loc scale
  return (loc, pinf)

/-- `weibull_min.py` 160-170. -/
noncomputable def mode (k loc scale : Num) : M Num := do
  let (k, loc, scale) ← validateParams k loc scale
  if k > 1 then
    let m := scale * (← mp.power (← (k - 1) /. k) (← 1 /. k))
    return loc + m
  else return loc + 0

/-- `weibull_min.py` 173-182. -/
noncomputable def mean (k loc scale : Num) : M Num := do
  let (k, loc, scale) ← validateParams k loc scale
  return loc + scale * (← mp.gamma (1 + (← 1 /. k)))

/-- `weibull_min.py` 185-196. -/
noncomputable def var (k loc scale : Num) : M Num := do
  let (k, _, scale) ← validateParams k loc scale
  let v1 := 1 + (← 1 /. k)
  let v2 := 1 + (← 2 /. k)
  return mp.ipow scale 2 * ((← mp.gamma v2) - mp.ipow (← mp.gamma v1) 2)

/-- `weibull_min.py` 199-211. -/
noncomputable def skewness (k loc scale : Num) : M Num := do
  let (k, _, _) ← validateParams k loc scale
  let g1 ← mp.gamma (1 + (← 1 /. k))
  let g2 ← mp.gamma (1 + (← 2 /. k))
  let g3 ← mp.gamma (1 + (← 3 /. k))
  (g3 - 3 * g1 * g2 + 2 * mp.ipow g1 3) /. (← mp.power (g2 - mp.ipow g1 2) (fin (3 / 2)))

/-- `weibull_min.py` 214-228. -/
noncomputable def kurtosis (k loc scale : Num) : M Num := do
  let (k, _, _) ← validateParams k loc scale
  let g1 ← mp.gamma (1 + (← 1 /. k))
  let g2 ← mp.gamma (1 + (← 2 /. k))
  let g3 ← mp.gamma (1 + (← 3 /. k))
  let g4 ← mp.gamma (1 + (← 4 /. k))
  let den := mp.ipow (g2 - mp.ipow g1 2) 2
  let num := -6 * mp.ipow g1 4 + 12 * mp.ipow g1 2 * g2 - 3 * mp.ipow g2 2 - 4 * g1 * g3 + g4
  num /. den

/-- `weibull_min.py` 231-240. -/
noncomputable def entropy (k loc scale : Num) : M Num := do
  let (k, _, scale) ← validateParams k loc scale
  return mp.euler * (1 - (← 1 /. k)) + (← mp.log scale) - (← mp.log k) + 1

/-- `weibull_min.py` 244-247. -/
noncomputable def standardNoncentralMoment (n : ℕ) (k : Num) : M Num := do
  if n = 0 then
    return 1
  mp.gamma (1 + (← fin n /. k))

/-- `weibull_min.py` 250-267. `mp.power` with an integer exponent is the integer power. -/
noncomputable def noncentralMoment (n : ℤ) (k : Num) (loc : Num := 0) (scale : Num := 1) : M Num := do
  let n ← validateMomentN n
  let (k, loc, _) ← validateParams k loc scale
  if n = 0 then
    return 1
  let terms ← (List.range (n + 1)).mapM fun (i : ℕ) => do
    return (← mp.binomial n i) * mp.ipow loc (n - i) * mp.ipow scale i * (← standardNoncentralMoment i k)
  return mp.fsum terms

end Mpsci.weibull_min

namespace Mpsci.weibull_max

open Classical Num weibull_common common

/-- `weibull_max.py` 61-82. -/
noncomputable def logpdf (x k loc scale : Num) : M Num := do
  let (k, loc, scale) ← validateParams k loc scale
  if x =. loc then
    if k < 1 then return pinf
    else if k =. 1 then return -(← mp.log scale)
    else return ninf
  else if x > loc then return ninf
  else
    let z ← (x - loc) /. scale
    return (← mp.log k) - k * (← mp.log scale) + (k - 1) * (← mp.log (-x + loc))
      - (← mp.power (-z) k)

/-- `weibull_max.py` 39-58. -/
noncomputable def pdf (x k loc scale : Num) : M Num := do
  let (k, loc, scale) ← validateParams k loc scale
  if x =. loc then
    if k < 1 then return pinf
    else if k =. 1 then 1 /. scale
    else return 0
  else if x > loc then return 0
  else return mp.exp (← logpdf x k loc scale)

/-- `weibull_max.py` 85-98. -/
noncomputable def cdf (x k loc scale : Num) : M Num := do
  let (k, loc, scale) ← validateParams k loc scale
  if x ≥ loc then return 1
  else
    let z ← (x - loc) /. scale
    return mp.exp (-(← mp.power (-z) k))

/-- `weibull_max.py` 101-113. -/
noncomputable def invcdf (p k loc scale : Num) : M Num := do
  let p ← validateP p
  let (k, loc, scale) ← validateParams k loc scale
  let z := -(← mp.power (-(← mp.log p)) (← 1 /. k))
  return scale * z + loc

/-- `weibull_max.py` 116-129. -/
noncomputable def sf (x k loc scale : Num) : M Num := do
  let (k, loc, scale) ← validateParams k loc scale
  if x ≥ loc then return 0
  else
    let z ← (x - loc) /. scale
    return -mp.expm1 (-(← mp.power (-z) k))

/-- `weibull_max.py` 132-144. -/
noncomputable def invsf (p k loc scale : Num) : M Num := do
  let p ← validateP p
  let (k, loc, scale) ← validateParams k loc scale
  let z := -(← mp.power (-(← mp.log1p (-p))) (← 1 /. k))
  return scale * z + loc

/-- `weibull_max.py` 147-156. -/
noncomputable def support (k loc scale : Num) : M (Num × Num) := do
  let (_, loc, _) ← validateParams k loc scale
  return (ninf, loc)

/-- `weibull_max.py` 159-169. -/
noncomputable def mode (k loc scale : Num) : M Num := do
  let (k, loc, scale) ← validateParams k loc scale
  if k > 1 then
    let m := scale * (← mp.power (← (k - 1) /. k) (← 1 /. k))
    return loc - m
  else return loc - 0

/-- `weibull_max.py` 172-181. -/
noncomputable def mean (k loc scale : Num) : M Num := do
  let (k, loc, scale) ← validateParams k loc scale
  return loc - scale * (← mp.gamma (1 + (← 1 /. k)))

/-- `weibull_max.py` 184-195. -/
noncomputable def var (k loc scale : Num) : M Num := do
  let (k, _, scale) ← validateParams k loc scale
  let v1 := 1 + (← 1 /. k)
  let v2 := 1 + (← 2 /. k)
  return mp.ipow scale 2 * ((← mp.gamma v2) - mp.ipow (← mp.gamma v1) 2)

/-- `weibull_max.py` 198-210. -/
noncomputable def skewness (k loc scale : Num) : M Num := do
  let (k, _, _) ← validateParams k loc scale
  let g1 ← mp.gamma (1 + (← 1 /. k))
  let g2 ← mp.gamma (1 + (← 2 /. k))
  let g3 ← mp.gamma (1 + (← 3 /. k))
  let num := -(g3 - 3 * g1 * g2 + 2 * mp.ipow g1 3)
  num /. (← mp.power (g2 - mp.ipow g1 2) (fin (3 / 2)))

/-- `weibull_max.py` 213-227. -/
noncomputable def kurtosis (k loc scale : Num) : M Num := do
  let (k, _, _) ← validateParams k loc scale
  let g1 ← mp.gamma (1 + (← 1 /. k))
  let g2 ← mp.gamma (1 + (← 2 /. k))
  let g3 ← mp.gamma (1 + (← 3 /. k))
  let g4 ← mp.gamma (1 + (← 4 /. k))
  let den := mp.ipow (g2 - mp.ipow g1 2) 2
  let num := -6 * mp.ipow g1 4 + 12 * mp.ipow g1 2 * g2 - 3 * mp.ipow g2 2 - 4 * g1 * g3 + g4
  num /. den

/-- `weibull_max.py` 230-239. -/
noncomputable def entropy (k loc scale : Num) : M Num := do
  let (k, _, scale) ← validateParams k loc scale
  return mp.euler * (1 - (← 1 /. k)) + (← mp.log scale) - (← mp.log k) + 1

/-- `weibull_max.py` 243-246. -/
noncomputable def standardNoncentralMoment (n : ℕ) (k : Num) : M Num := do
  if n = 0 then
    return 1
  return fin ((-1) ^ (n % 2)) * (← mp.gamma (1 + (← fin n /. k)))

/-- `weibull_max.py` 249-263. `mp.power` with an integer exponent is the integer power. -/
noncomputable def noncentralMoment (n : ℤ) (k : Num) (loc : Num := 0) (scale : Num := 1) : M Num := do
  let n ← validateMomentN n
  let (k, loc, _) ← validateParams k loc scale
  if n = 0 then
    return 1
  let terms ← (List.range (n + 1)).mapM fun (i : ℕ) => do
    return (← mp.binomial n i) * mp.ipow loc (n - i) * mp.ipow scale i * (← standardNoncentralMoment i k)
  return mp.fsum terms

end Mpsci.weibull_max
