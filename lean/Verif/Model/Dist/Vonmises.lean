import Verif.Base.Bessel

/-! Model of `mpsci/distributions/vonmises.py`. -/

namespace Mpsci.vonmises

open Classical Num

/-- `vonmises.py` 19-28. -/
noncomputable def pdf (x kappa : Num) (mu : Num := 0) : M Num := do
  let i0k ← mp.besseli 0 kappa
  let numer := mp.exp (kappa * mp.cos (x - mu))
  numer /. (2 * mp.pi * i0k)

/-- `vonmises.py` 32-40. -/
noncomputable def logpdf (x kappa : Num) (mu : Num := 0) : M Num := do
  let i0k ← mp.besseli 0 kappa
  return kappa * mp.cos (x - mu) - (← mp.log (2 * mp.pi)) - (← mp.log i0k)

/-- `vonmises.py` 43-49. -/
noncomputable def circmean (_kappa : Num) (mu : Num := 0) : M Num := .ok mu

/-- `vonmises.py` 53-67. -/
noncomputable def circvar (kappa : Num) (_mu : Num := 0) : M Num := do
  let r ← (← mp.besseli 1 kappa) /. (← mp.besseli 0 kappa)
  return 1 - r

/-- `vonmises.py` 71-84. -/
noncomputable def support (_kappa : Num) (mu : Num := 0) : M (Num × Num) := .ok (-mp.pi + mu, mp.pi + mu)

/-- `vonmises.py` 88-96. -/
noncomputable def entropy (kappa : Num) (_mu : Num := 0) : M Num := do
  let i0k ← mp.besseli 0 kappa
  let r ← (← mp.besseli 1 kappa) /. i0k
  let t := -kappa * r
  return t + (← mp.log (2 * mp.pi * i0k))

end Mpsci.vonmises
