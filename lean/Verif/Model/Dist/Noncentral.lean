import Verif.Model.Common
import Verif.Model.Fun.Special
import Verif.Model.Fun.Logbeta
import Verif.Base.Hyp1f1
import Verif.Base.Special

/-! Models of `mpsci/distributions/ncx2.py`, `rice.py` and `ncf.py`. -/

namespace Mpsci.ncx2

open Classical Num

/-- `ncx2.py` 14-25. -/
noncomputable def pdf (x k lam : Num) : M Num := do
  if x < 0 then
    return 0
  else
    let nu := (← k /. 2) - 1
    (mp.exp (← (-(x + lam)) /. 2) * (← mp.power (← x /. lam) (← nu /. 2)) * (← mp.besseliR nu (← mp.sqrt (lam * x)))) /. 2

/-- `ncx2.py` 29-39. -/
noncomputable def cdf (x k lam : Num) : M Num := do
  if x ≤ 0 then
    return 0
  else
    fun_.cmarcumq (← k /. 2) (← mp.sqrt lam) (← mp.sqrt x)

/-- `ncx2.py` 43-53. -/
noncomputable def sf (x k lam : Num) : M Num := do
  if x ≤ 0 then
    return 1
  else
    fun_.marcumq (← k /. 2) (← mp.sqrt lam) (← mp.sqrt x)

/-- `ncx2.py` 57-63. -/
noncomputable def support (_k _lam : Num) : M (Num × Num) := return (0, pinf)

/-- `ncx2.py` 67-73. -/
noncomputable def mean (k lam : Num) : M Num := return k + lam

/-- `ncx2.py` 77-83. -/
noncomputable def var (k lam : Num) : M Num := return 2 * (k + 2 * lam)

end Mpsci.ncx2

namespace Mpsci.rice

open Classical Num common

/-- `rice.py` 28-33. -/
noncomputable def validateParams (nu sigma : Num) : M (Num × Num) :=
  if nu < 0 then throw .valueError
  else if sigma ≤ 0 then throw .valueError
  else return (nu, sigma)

/-- `rice.py` 37-48. -/
noncomputable def pdf (x nu sigma : Num) : M Num := do
  let (nu, sigma) ← validateParams nu sigma
  if x ≤ 0 then
    return 0
  else
    let sigma2 := mp.ipow sigma 2
    return (← x /. sigma2) * mp.exp (← (-(mp.ipow x 2 + mp.ipow nu 2)) /. (2 * sigma2)) * (← mp.besseliR 0 (← (x * nu) /. sigma2))

/-- `rice.py` 52-66. -/
noncomputable def logpdf (x nu sigma : Num) : M Num := do
  let (nu, sigma) ← validateParams nu sigma
  if x ≤ 0 then
    return ninf
  else
    let sigma2 := mp.ipow sigma 2
    return (← mp.log x) - 2 * (← mp.log sigma) - (← (mp.ipow x 2 + mp.ipow nu 2) /. (2 * sigma2)) +
      (← mp.log (← mp.besseliR 0 (← (x * nu) /. sigma2)))

/-- `rice.py` 70-79. -/
noncomputable def cdf (x nu sigma : Num) : M Num := do
  let (nu, sigma) ← validateParams nu sigma
  if x ≤ 0 then
    return 0
  else
    fun_.cmarcumq 1 (← nu /. sigma) (← x /. sigma)

/-- `rice.py` 83-92. -/
noncomputable def sf (x nu sigma : Num) : M Num := do
  let (nu, sigma) ← validateParams nu sigma
  if x ≤ 0 then
    return 1
  else
    fun_.marcumq 1 (← nu /. sigma) (← x /. sigma)

/-- `rice.py` 96-101. -/
noncomputable def support (nu sigma : Num) : M (Num × Num) := do
  let _ ← validateParams nu sigma
  return (0, pinf)

/-- `rice.py` 105-111. -/
noncomputable def mean (nu sigma : Num) : M Num := do
  let (nu, sigma) ← validateParams nu sigma
  return sigma * (← mp.sqrt (← mp.pi /. 2)) * (← mp.laguerre0 (fin 0.5) (← (-(mp.ipow (← nu /. sigma) 2)) /. 2))

/-- `rice.py` 125-127: the equation solved for the mode. -/
noncomputable def modeEq (nu sigma r x : Num) : M Num := do
  return (sigma + x) * (sigma - x) + (← (x * nu * (← mp.besseliR 1 (r * x))) /. (← mp.besseliR 0 (r * x)))

/-- `rice.py` 115-130, with the root finder as a parameter. -/
noncomputable def mode (findroot : (Num → M Num) → Num → M Num) (nu sigma : Num) : M Num := do
  let (nu, sigma) ← validateParams nu sigma
  let r ← nu /. mp.ipow sigma 2
  findroot (modeEq nu sigma r) (← mean nu sigma)

/-- `rice.py` 143-157. -/
noncomputable def noncentralMoment (n : ℤ) (nu sigma : Num) : M Num := do
  let n ← validateMomentN n
  let (nu, sigma) ← validateParams nu sigma
  if n = 0 then
    return 1
  else
    let h ← fin (n : ℝ) /. 2
    let t1 := fin (n : ℝ) * (← mp.log sigma)
    let t2 := h * (← mp.log 2)
    let t3 ← mp.loggamma (1 + h)
    let t4 ← mp.log (← mp.hyp1f1 (← (-(fin (n : ℝ))) /. 2) 1 (← (-(mp.ipow (← nu /. sigma) 2)) /. 2))
    return mp.exp (mp.fsum [t1, t2, t3, t4])

/-- `rice.py` 134-139. -/
noncomputable def var (nu sigma : Num) : M Num := do
  let (nu, sigma) ← validateParams nu sigma
  return (← noncentralMoment 2 nu sigma) - mp.ipow (← mean nu sigma) 2

end Mpsci.rice

namespace Mpsci.ncf

open Classical Num

/-- `ncf.py` 13-25. -/
noncomputable def pdfTerm (k : ℕ) (x dfn dfd nc : Num) : M Num := do
  let k : Num := fin (k : ℝ)
  let halfnc ← nc /. 2
  let halfdfn ← dfn /. 2
  let halfdfd ← dfd /. 2
  let logr := -halfnc + k * (← mp.log halfnc) - (← fun_.logbeta halfdfd (halfdfn + k)) - (← mp.loggamma (k + 1)) +
    (halfdfn + k) * ((← mp.log dfn) - (← mp.log dfd)) +
    (halfdfn + halfdfd + k) * ((← mp.log dfd) - (← mp.log (dfd + dfn * x))) + (halfdfn - 1 + k) * (← mp.log x)
  return mp.exp logr

/-- `ncf.py` 29-44. -/
noncomputable def pdf (x dfn dfd nc : Num) : M Num := do
  if x < 0 then
    return 0
  else
    mp.nsum (fun k => pdfTerm k x dfn dfd nc) 0

/-- `ncf.py` 47-56. -/
noncomputable def cdfTerm (k : ℕ) (x dfn dfd nc : Num) : M Num := do
  let k : Num := fin (k : ℝ)
  let halfnc ← nc /. 2
  let halfdfn ← dfn /. 2
  let halfdfd ← dfd /. 2
  let logCoeff := mp.fsum [k * (← mp.log halfnc), -halfnc, -(← mp.loggamma (k + 1))]
  let coeff := mp.exp logCoeff
  return coeff * (← mp.betaincReg (halfdfn + k) halfdfd 0 (← (dfn * x) /. (dfd + dfn * x)))

/-- `ncf.py` 60-75. -/
noncomputable def cdf (x dfn dfd nc : Num) : M Num := do
  if x < 0 then
    return 0
  else
    mp.nsum (fun k => cdfTerm k x dfn dfd nc) 0

/-- `ncf.py` 79-86. -/
noncomputable def support (_dfn _dfd _nc : Num) : M (Num × Num) := return (0, pinf)

/-- `ncf.py` 90-100. -/
noncomputable def mean (dfn dfd nc : Num) : M Num := do
  if dfd ≤ 2 then
    return nan
  else
    (← (dfd * (dfn + nc)) /. dfn) /. (dfd - 2)

/-- `ncf.py` 104-118. -/
noncomputable def var (dfn dfd nc : Num) : M Num := do
  if dfd ≤ 4 then
    return nan
  else
    return (← (2 * (mp.ipow (dfn + nc) 2 + (dfn + 2 * nc) * (dfd - 2))) /. (mp.ipow (dfd - 2) 2 * (dfd - 4))) *
      mp.ipow (← dfd /. dfn) 2

end Mpsci.ncf
