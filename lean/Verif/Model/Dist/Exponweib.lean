import Verif.Model.Common
import Verif.Base.Nsum
import Verif.Base.Discrete

/-! Model of `mpsci/distributions/exponweib.py`. -/

namespace Mpsci.exponweib

open Classical Num common

/-- `exponweib.py` 13-20. -/
noncomputable def validateParams (a c scale : Num) : M (Num × Num × Num) :=
  if a ≤ 0 then .error .valueError
  else if c ≤ 0 then .error .valueError
  else if scale ≤ 0 then .error .valueError
  else .ok (a, c, scale)

/-- `exponweib.py` 23-37. -/
noncomputable def pdf (x a c : Num) (scale : Num := 1) : M Num := do
  let (a, c, scale) ← validateParams a c scale
  if x < 0 then
    return 0
  else
    let z ← x /. scale
    return (← a * c /. scale) * (← mp.power z (c - 1))
      * (← mp.power (-(mp.expm1 (-(← mp.power z c)))) (a - 1)) * mp.exp (-(← mp.power z c))

/-- `exponweib.py` 40-58. -/
noncomputable def logpdf (x a c : Num) (scale : Num := 1) : M Num := do
  let (a, c, scale) ← validateParams a c scale
  if x < 0 then
    return ninf
  else
    let z ← x /. scale
    return (← mp.log a) + (← mp.log c) - (← mp.log scale) + (c - 1) * (← mp.log z)
      + (a - 1) * (← mp.log (-(mp.expm1 (-(← mp.power z c))))) - (← mp.power z c)

/-- `exponweib.py` 61-76. -/
noncomputable def cdf (x a c : Num) (scale : Num := 1) : M Num := do
  let (a, c, scale) ← validateParams a c scale
  if x < 0 then
    return 0
  else
    let z ← x /. scale
    mp.power (-(mp.expm1 (-(← mp.power z c)))) a

/-- `exponweib.py` 79-86. -/
noncomputable def invcdf (p a c : Num) (scale : Num := 1) : M Num := do
  let (a, c, scale) ← validateParams a c scale
  let p ← validateP p
  return scale * (← mp.power (-(← mp.log1p (-(← mp.power p (← 1 /. a))))) (← 1 /. c))

/-- `exponweib.py` 89-99. -/
noncomputable def sf (x a c : Num) (scale : Num := 1) : M Num := do
  let (a, c, scale) ← validateParams a c scale
  if x < 0 then
    return 1
  else
    let z ← x /. scale
    return -(← mp.powm1 (-(mp.expm1 (-(← mp.power z c)))) a)

/-- `exponweib.py` 102-109. -/
noncomputable def invsf (p a c : Num) (scale : Num := 1) : M Num := do
  let (a, c, scale) ← validateParams a c scale
  let p ← validateP p
  return scale *
    (← mp.power (-(← mp.log (-(mp.expm1 (← (← mp.log1p (-p)) /. a))))) (← 1 /. c))

/-- `exponweib.py` 112-117. -/
noncomputable def support (a c : Num) (scale : Num := 1) : M (Num × Num) := do
  let _ ← validateParams a c scale
  return (0, pinf)

/-- `exponweib.py` 120-132. The loop multiplies `theta - 1 - j` for `j = 0, ..., i - 1`. -/
noncomputable def aCoeff (i : ℕ) (theta : Num) : M Num := do
  let y := (List.range i).foldl (fun y (j : ℕ) => y * (theta - 1 - fin (j : ℝ))) 1
  (← mp.power (fin (-1)) (fin i)) * y /. (← mp.factorial i)

/-- `exponweib.py` 135-146. -/
noncomputable def term (i : ℕ) (k theta c : Num) : M Num := do
  return (← aCoeff i theta) * (← mp.power (fin i + 1) (-((← k /. c) + 1)))

/-- `exponweib.py` 150-161. -/
noncomputable def noncentralMoment (k a c : Num) (scale : Num := 1) : M Num := do
  let (a, c, scale) ← validateParams a c scale
  let s ← mp.nsum (fun i => term i k a c) 1
  return a * (← mp.power scale k) * (← mp.gamma ((← k /. c) + 1)) * (1 + s)

/-- `exponweib.py` 164-170. -/
noncomputable def mean (a c : Num) (scale : Num := 1) : M Num := noncentralMoment 1 a c scale

/-- `exponweib.py` 174-187. -/
noncomputable def var (a c : Num) (scale : Num := 1) : M Num := do
  let m1 ← noncentralMoment 1 a c scale
  let m2 ← noncentralMoment 2 a c scale
  return m2 - mp.ipow m1 2

end Mpsci.exponweib
