import Verif.Model.Common
import Verif.Model.Common.Search
import Verif.Model.Fun.Powm1
import Mathlib.Analysis.SpecialFunctions.Complex.Arctan
import Mathlib.Analysis.SpecialFunctions.Pow.Complex

/-! Model of `mpsci/distributions/rel_breitwigner.py`. -/

namespace Mpsci.rel_breitwigner

open Classical Num common

/-- `rel_breitwigner.py` 38-43. -/
noncomputable def validateParams (rho scale : Num) : M (Num × Num) :=
  if rho ≤ 0 then .error .valueError
  else if scale ≤ 0 then .error .valueError
  else .ok (rho, scale)

/-- `rel_breitwigner.py` 46-52. -/
noncomputable def k (rho : Num) : M Num := do
  let rho2 := mp.ipow rho 2
  let s ← mp.sqrt (rho2 + 1)
  (← (2 * (← mp.sqrt 2) * rho2 * s) /. (← mp.sqrt (rho2 + rho * s))) /. mp.pi

/-- `rel_breitwigner.py` 55-67. -/
noncomputable def pdf (x rho scale : Num) : M Num := do
  let (rho, scale) ← validateParams rho scale
  if x < 0 then
    return 0
  let k ← k rho
  let rho2 := mp.ipow rho 2
  let z ← x /. scale
  (← k /. (mp.ipow (mp.ipow z 2 - rho2) 2 + rho2)) /. scale

/-- `rel_breitwigner.py` 70-82. -/
noncomputable def logpdf (x rho scale : Num) : M Num := do
  let (rho, scale) ← validateParams rho scale
  if x < 0 then
    return ninf
  let logk ← mp.log (← k rho)
  let z ← x /. scale
  return logk - 2 * (← mp.log rho) - (← mp.log scale) - (← mp.log1p (mp.ipow (← ((z + rho) * (z - rho)) /. rho) 2))

/-- `rel_breitwigner.py` lines 98-99: `alpha = mp.sqrt(-rho*(rho + 1j))`, the principal square root. -/
noncomputable def alpha (rho : ℝ) : ℂ := (-(rho : ℂ) * (rho + Complex.I)) ^ (1 / 2 : ℂ)

/-- `rel_breitwigner.py` line 99: `(mp.atan(z/alpha)/alpha).imag`; `mp.atan` is the principal branch, as `Complex.arctan`.
Infinite arguments are not modelled (the code returns before, unless a parameter is infinite). -/
noncomputable def atanImag : Num → Num → M Num
  | fin z, fin rho => .ok (fin (Complex.arctan (z / alpha rho) / alpha rho).im)
  | _, _ => .error .notModelled

/-- `rel_breitwigner.py` 85-99. -/
noncomputable def cdf (x rho scale : Num) : M Num := do
  let (rho, scale) ← validateParams rho scale
  if x < 0 then
    return 0
  if x =. pinf ∨ x =. ninf then
    return 1
  let z ← x /. scale
  let k ← k rho
  (k * (← atanImag z rho)) /. rho

/-- `rel_breitwigner.py` 102-114; `findroot` is `mp.findroot` with the default solver (secant). -/
noncomputable def invcdf (findroot : (Num → M Num) → Num → Num → M Num) (fuel : ℕ) (p rho scale : Num) : M Num := do
  let p ← validateP p
  let (rho, scale) ← validateParams rho scale
  bracketRootAlways findroot fuel (fun x => cdf x rho scale) p 0 pinf

/-- `rel_breitwigner.py` 117-123. -/
noncomputable def sf (x rho scale : Num) : M Num := do
  return 1 - (← cdf x rho scale)

/-- `rel_breitwigner.py` 126-137. -/
noncomputable def invsf (findroot : (Num → M Num) → Num → Num → M Num) (fuel : ℕ) (p rho scale : Num) : M Num := do
  let p ← validateP p
  let (rho, scale) ← validateParams rho scale
  bracketRootAlways findroot fuel (fun x => sf x rho scale) p 0 pinf

/-- `rel_breitwigner.py` 140-145. -/
noncomputable def support (rho scale : Num) : M (Num × Num) := do
  let _ ← validateParams rho scale
  return (0, pinf)

/-- `rel_breitwigner.py` 148-155. -/
noncomputable def mean (rho scale : Num) : M Num := do
  let (rho, scale) ← validateParams rho scale
  let k ← k rho
  return (← (scale * k) /. (2 * rho)) * ((← mp.pi /. 2) + mp.atan rho)

/-- `rel_breitwigner.py` 176-195. -/
noncomputable def noncentralMoment (n : ℤ) (rho scale : Num) : M Num := do
  let n ← validateMomentN n
  let (rho, scale) ← validateParams rho scale
  if n = 0 then return 1
  if n = 1 then mean rho scale
  else if n = 2 then
    let c ← mp.pi /. (2 * (← mp.sqrt 2))
    let k ← k rho
    let half ← 1 /. 2
    (mp.ipow scale 2 * c * k) /. (rho * (← mp.sqrt (← fun_.pow1pm1 (← mp.power rho (fin (-2))) half)))
  else return pinf

/-- `rel_breitwigner.py` 158-164. -/
noncomputable def var (rho scale : Num) : M Num := do
  let (rho, scale) ← validateParams rho scale
  return (← noncentralMoment 2 rho scale) - mp.ipow (← mean rho scale) 2

/-- `rel_breitwigner.py` 167-173. -/
noncomputable def mode (rho scale : Num) : M Num := do
  let (rho, scale) ← validateParams rho scale
  return rho * scale

end Mpsci.rel_breitwigner
