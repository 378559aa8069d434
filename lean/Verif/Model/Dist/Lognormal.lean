import Verif.Model.Common
import Verif.Base.NormalErf

/-! Model of `mpsci/distributions/lognormal.py`. Squares are written as products, the float `0.5` as 1/2. -/

namespace Mpsci.lognormal

open Classical Num common

/-- `lognormal.py` 21-24. -/
noncomputable def validate (mu sigma : Num) : M (Num × Num) :=
  if sigma ≤ 0 then .error .valueError else .ok (mu, sigma)

/-- `lognormal.py` 27-37. -/
noncomputable def pdf (x : Num) (mu : Num := 0) (sigma : Num := 1) : M Num := do
  let (mu, sigma) ← validate mu sigma
  if x ≤ 0 then return 0
  let lnx ← mp.log x
  (← mp.npdf lnx mu sigma) /. x

/-- `lognormal.py` 40-52. -/
noncomputable def logpdf (x : Num) (mu : Num := 0) (sigma : Num := 1) : M Num := do
  let (mu, sigma) ← validate mu sigma
  if x ≤ 0 then return -pinf
  let lnx ← mp.log x
  let t ← (-((lnx - mu) * (lnx - mu))) /. (2 * (sigma * sigma))
  return -(← mp.log x) - (← mp.log sigma) - fin (1 / 2) * (← mp.log (2 * mp.pi)) + t

/-- `lognormal.py` 55-65. -/
noncomputable def cdf (x : Num) (mu : Num := 0) (sigma : Num := 1) : M Num := do
  let (mu, sigma) ← validate mu sigma
  if x ≤ 0 then return 0
  let lnx ← mp.log x
  mp.ncdf3 lnx mu sigma

/-- `lognormal.py` 68-78; the expression `mp.mp.one` in line 76 raises AttributeError (`mp` is the context object
`mpmath.mp`, which has no attribute `mp`). -/
noncomputable def sf (x : Num) (mu : Num := 0) (sigma : Num := 1) : M Num := do
  let (mu, sigma) ← validate mu sigma
  if x ≤ 0 then .error .attributeError
  else do
    let lnx ← mp.log x
    mp.ncdf3 (-lnx) (-mu) sigma

/-- `lognormal.py` 81-93. -/
noncomputable def invcdf (p : Num) (mu : Num := 0) (sigma : Num := 1) : M Num := do
  let p ← validateP p
  let (mu, sigma) ← validate mu sigma
  let a ← mp.erfinv (2 * p - 1)
  return mp.exp ((← mp.sqrt 2) * sigma * a + mu)

/-- `lognormal.py` 96-103. -/
noncomputable def invsf (p : Num) (mu : Num := 0) (sigma : Num := 1) : M Num := do
  let p ← validateP p
  let (mu, sigma) ← validate mu sigma
  invcdf (1 - p) mu sigma

/-- `lognormal.py` 106-112. -/
noncomputable def support (mu : Num := 0) (sigma : Num := 1) : M (Num × Num) := do
  let _ ← validate mu sigma
  return (0, pinf)

/-- `lognormal.py` 115-121. -/
noncomputable def mean (mu : Num := 0) (sigma : Num := 1) : M Num := do
  let (mu, sigma) ← validate mu sigma
  return mp.exp (mu + (← (sigma * sigma) /. 2))

/-- `lognormal.py` 124-130. -/
noncomputable def mode (mu : Num := 0) (sigma : Num := 1) : M Num := do
  let (mu, sigma) ← validate mu sigma
  return mp.exp (mu - sigma * sigma)

/-- `lognormal.py` 133-140. -/
noncomputable def var (mu : Num := 0) (sigma : Num := 1) : M Num := do
  let (mu, sigma) ← validate mu sigma
  let sigma2 := sigma * sigma
  return mp.expm1 sigma2 * mp.exp (2 * mu + sigma2)

/-- `lognormal.py` 143-150. -/
noncomputable def skewness (mu : Num := 0) (sigma : Num := 1) : M Num := do
  let (_, sigma) ← validate mu sigma
  let sigma2 := sigma * sigma
  return (mp.exp sigma2 + 2) * (← mp.sqrt (mp.expm1 sigma2))

/-- `lognormal.py` 153-161. -/
noncomputable def kurtosis (mu : Num := 0) (sigma : Num := 1) : M Num := do
  let (_, sigma) ← validate mu sigma
  let sigma2 := sigma * sigma
  return mp.exp (4 * sigma2) + 2 * mp.exp (3 * sigma2) + 3 * mp.exp (2 * sigma2) - 6

/-- `lognormal.py` 164-170. -/
noncomputable def entropy (mu : Num := 0) (sigma : Num := 1) : M Num := do
  let (mu, sigma) ← validate mu sigma
  return (← mp.log sigma) + mu + fin (1 / 2) + fin (1 / 2) * (← mp.log (2 * mp.pi))

/-- `lognormal.py` 173-180. -/
noncomputable def noncentralMoment (n : ℤ) (mu : Num := 0) (sigma : Num := 1) : M Num := do
  let n ← validateMomentN n
  let (mu, sigma) ← validate mu sigma
  return mp.exp (fin n * mu + (← (fin n * fin n * (sigma * sigma)) /. 2))

/-- `lognormal.py` 183-193. -/
noncomputable def nll (x : List Num) (mu sigma : Num) : M Num := do
  let (mu, sigma) ← validate mu sigma
  let x ← validateXBounds x (some 0) (some pinf) true true
  return -(mp.fsum (← x.mapM fun xi => logpdf xi mu sigma))

/-- `lognormal.py` 199-214; Python's `sum` is written `mp.fsum`. -/
noncomputable def mle (x : List Num) : M (Num × Num) := do
  let x ← validateXBounds x (some 0) none true false
  let lnx ← x.mapM mp.log
  let n : Num := fin (x.length : ℝ)
  let meanx ← mp.fsum lnx /. n
  let var ← mp.fsum (lnx.map fun lnxi => (lnxi - meanx) * (lnxi - meanx)) /. n
  let sigma ← mp.sqrt var
  return (meanx, sigma)

/-- `lognormal.py` 217-232. -/
noncomputable def mom (x : List Num) : M (Num × Num) := do
  let x ← validateXBounds x (some 0) none true false
  let logsumx ← mp.log (mp.fsum x)
  let logsumx2 ← mp.log (mp.fsum (x.map fun t => t * t))
  let logn ← mp.log (fin (x.length : ℝ))
  let mu := (← (-logsumx2) /. 2) + 2 * logsumx - (← (3 * logn) /. 2)
  let sigma ← mp.sqrt (logsumx2 - 2 * logsumx + logn)
  return (mu, sigma)

end Mpsci.lognormal
