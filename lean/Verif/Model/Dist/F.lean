import Verif.Model.Fun.InvRegIncBeta
import Verif.Model.Fun.Powm1
import Verif.Model.Fun.Logbeta
import Verif.Model.Common
import Verif.Base.Digamma

/-! Model of `mpsci/distributions/f.py`. -/

namespace Mpsci.fdist

open Classical Num common

/-- `f.py` 16-21 -/
noncomputable def validateParams (dfn dfd : Num) : M (Num × Num) := do
  if dfn ≤ 0 then throw .valueError
  if dfd ≤ 0 then throw .valueError
  return (dfn, dfd)

/-- `f.py` 25-42 -/
noncomputable def pdf (x dfn dfd : Num) : M Num := do
  let (dfn, dfd) ← validateParams dfn dfd
  if x ≤ 0 then return 0
  let r ← dfn /. dfd
  let hdfn ← dfn /. 2
  let hdfd ← dfd /. 2
  ((← mp.power r hdfn) * (← mp.power x (hdfn - 1)) * (← mp.power (1 + r * x) (-(hdfn + hdfd)))) /. (← mp.beta hdfn hdfd)

/-- `f.py` 46-63 -/
noncomputable def logpdf (x dfn dfd : Num) : M Num := do
  let (dfn, dfd) ← validateParams dfn dfd
  if x ≤ 0 then return ninf
  let r ← dfn /. dfd
  let hdfn ← dfn /. 2
  let hdfd ← dfd /. 2
  return hdfn * ((← mp.log dfn) - (← mp.log dfd)) + (← fun_.xlogy (hdfn - 1) x) - (← fun_.xlog1py (hdfn + hdfd) (r * x))
    - (← fun_.logbeta hdfn hdfd)

/-- `f.py` 67-79 -/
noncomputable def cdf (x dfn dfd : Num) : M Num := do
  let (dfn, dfd) ← validateParams dfn dfd
  if x ≤ 0 then return 0
  let dfnx := dfn * x
  mp.betaincReg (← dfn /. 2) (← dfd /. 2) 0 (← dfnx /. (dfnx + dfd))

/-- `f.py` 97-109 -/
noncomputable def sf (x dfn dfd : Num) : M Num := do
  let (dfn, dfd) ← validateParams dfn dfd
  if x ≤ 0 then return 1
  let dfnx := dfn * x
  mp.betaincReg (← dfn /. 2) (← dfd /. 2) (← dfnx /. (dfnx + dfd)) 1

/-- `f.py` 83-93.  `rnd` is the rounding that stops the bisection. -/
noncomputable def invcdf (rnd : ℝ → ℝ) (fuel : ℕ) (p dfn dfd : Num) : M Num := do
  let (dfn, dfd) ← validateParams dfn dfd
  let p ← validateP p
  let g ← fn.betaincinvBisect rnd fuel (← dfn /. 2) (← dfd /. 2) p 0 1 false
  ((← dfd /. dfn) * g) /. (1 - g)

/-- `f.py` 113-123 -/
noncomputable def invsf (rnd : ℝ → ℝ) (fuel : ℕ) (p dfn dfd : Num) : M Num := do
  let (dfn, dfd) ← validateParams dfn dfd
  let p ← validateP p
  let g ← fn.betaincinvBisect rnd fuel (← dfd /. 2) (← dfn /. 2) p 0 1 false
  ((← dfd /. dfn) * (1 - g)) /. g

/-- `f.py` 127-132 -/
noncomputable def support (dfn dfd : Num) : M (Num × Num) := do
  let _ ← validateParams dfn dfd
  return (0, pinf)

/-- `f.py` 136-148 -/
noncomputable def mean (dfn dfd : Num) : M Num := do
  let (_, dfd) ← validateParams dfn dfd
  if dfd > 2 then dfd /. (dfd - 2) else return pinf

/-- `f.py` 152-163 -/
noncomputable def mode (dfn dfd : Num) : M Num := do
  let (dfn, dfd) ← validateParams dfn dfd
  if dfn ≤ 2 then return 0
  return (← (dfn - 2) /. dfn) * (← dfd /. (dfd + 2))

/-- `f.py` 167-180 -/
noncomputable def var (dfn dfd : Num) : M Num := do
  let (dfn, dfd) ← validateParams dfn dfd
  if dfd > 4 then (2 * mp.ipow dfd 2 * (dfn + dfd - 2)) /. (dfn * mp.ipow (dfd - 2) 2 * (dfd - 4)) else return pinf

/-- `f.py` 184-199 -/
noncomputable def entropy (dfn dfd : Num) : M Num := do
  let (dfn, dfd) ← validateParams dfn dfd
  let dfn2 ← dfn /. 2
  let dfd2 ← dfd /. 2
  let dfmean := dfn2 + dfd2
  return (← mp.log (← dfd /. dfn)) + (← fun_.logbeta dfn2 dfd2) + (1 - dfn2) * (← mp.digamma dfn2) - (1 + dfd2) * (← mp.digamma dfd2)
    + dfmean * (← mp.digamma dfmean)

end Mpsci.fdist
