import Verif.Model.Common
import Verif.Base.NormalErf

/-! Model of `mpsci/distributions/normal.py`. Squares are written as products. -/

namespace Mpsci.normal

open Classical Num common

/-- `normal.py` 16-22. -/
noncomputable def pdf (x : Num) (mu : Num := 0) (sigma : Num := 1) : M Num := do
  let (mu, sigma) ← validateLocScale mu sigma
  mp.npdf x mu sigma

/-- `normal.py` 26-34. -/
noncomputable def logpdf (x : Num) (mu : Num := 0) (sigma : Num := 1) : M Num := do
  let (mu, sigma) ← validateLocScale mu sigma
  return -(← (← mp.log (2 * mp.pi)) /. 2) - (← mp.log sigma) - (← ((x - mu) * (x - mu)) /. (2 * (sigma * sigma)))

/-- `normal.py` 38-44. -/
noncomputable def cdf (x : Num) (mu : Num := 0) (sigma : Num := 1) : M Num := do
  let (mu, sigma) ← validateLocScale mu sigma
  mp.ncdf3 x mu sigma

/-- `normal.py` 48-54. -/
noncomputable def sf (x : Num) (mu : Num := 0) (sigma : Num := 1) : M Num := do
  let (mu, sigma) ← validateLocScale mu sigma
  mp.ncdf3 (-x + 2 * mu) mu sigma

/-- `normal.py` 57-69. -/
noncomputable def invcdf (p : Num) (mu : Num := 0) (sigma : Num := 1) : M Num := do
  let p ← validateP p
  let (mu, sigma) ← validateLocScale mu sigma
  let a ← mp.erfinv (2 * p - 1)
  return (← mp.sqrt 2) * sigma * a + mu

/-- `normal.py` 72-81. -/
noncomputable def invsf (p : Num) (mu : Num := 0) (sigma : Num := 1) : M Num := do
  let p ← validateP p
  let (mu, sigma) ← validateLocScale mu sigma
  let a ← mp.erfinv (1 - 2 * p)
  return (← mp.sqrt 2) * sigma * a + mu

/-- `normal.py` 85-90. -/
noncomputable def support (mu : Num := 0) (sigma : Num := 1) : M (Num × Num) := do
  let _ ← validateLocScale mu sigma
  return (ninf, pinf)

/-- `normal.py` 93-100. -/
noncomputable def mean (mu : Num := 0) (sigma : Num := 1) : M Num := do
  let (mu, _) ← validateLocScale mu sigma
  return mu

/-- `normal.py` 103-110. -/
noncomputable def median (mu : Num := 0) (sigma : Num := 1) : M Num := do
  let (mu, _) ← validateLocScale mu sigma
  return mu

/-- `normal.py` 113-120. -/
noncomputable def mode (mu : Num := 0) (sigma : Num := 1) : M Num := do
  let (mu, _) ← validateLocScale mu sigma
  return mu

/-- `normal.py` 124-129. -/
noncomputable def entropy (mu : Num := 0) (sigma : Num := 1) : M Num := do
  let (_, sigma) ← validateLocScale mu sigma
  return (← ((← mp.log (2 * mp.pi)) + 1) /. 2) + (← mp.log sigma)

/-- `normal.py` 133-139. -/
noncomputable def nll (x : List Num) (mu : Num := 1) (sigma : Num := 1) : M Num := do
  let (mu, sigma) ← validateLocScale mu sigma
  return -(mp.fsum (← x.mapM fun t => logpdf t mu sigma))

/-- `normal.py` 145-156; Python's `sum` is written `mp.fsum`. -/
noncomputable def mle (x : List Num) : M (Num × Num) := do
  let n : Num := fin (x.length : ℝ)
  let meanx ← mp.fsum x /. n
  let var ← mp.fsum (x.map fun xi => (xi - meanx) * (xi - meanx)) /. n
  let sigma ← mp.sqrt var
  return (meanx, sigma)

end Mpsci.normal
