import Verif.Base.Discrete
import Verif.Model.Common

/-! Model of `mpsci/distributions/gauss_kuzmin.py` -/

namespace Mpsci.gauss_kuzmin

open Classical Num

/-- `gauss_kuzmin.py` 43-54 `pmf` -/
noncomputable def pmf (k : Num) : M Num := do
  if k < 1 then return 0
  let r ← 1 /. (k + 1)
  (-((← mp.log1p (-r)) + (← mp.log1p r))) /. (← mp.log 2)

/-- `gauss_kuzmin.py` 57-67 `logpmf` -/
noncomputable def logpmf (k : Num) : M Num := do
  if k < 0 then return ninf
  mp.log (← pmf k)

/-- `gauss_kuzmin.py` 70-83 `cdf`; `k = pinf ∨ k = ninf` is `mp.isinf(k)`. -/
noncomputable def cdf (k : Num) : M Num := do
  if k < 0 then return 0
  if k = pinf ∨ k = ninf then return 1
  let r ← 1 /. (k + 1)
  return 1 - (← (← mp.log1p r) /. (← mp.log 2))

/-- `gauss_kuzmin.py` 86-98 `invcdf` -/
noncomputable def invcdf (p : Num) : M Num := do
  let p ← common.validateP p
  if p =. 1 then return pinf
  let t ← mp.powm1 2 (1 - p)
  mp.powm1 t (-1)

/-- `gauss_kuzmin.py` 101-112 `sf` -/
noncomputable def sf (k : Num) : M Num := do
  if k < 0 then return 1
  let r ← 1 /. (k + 1)
  (← mp.log1p r) /. (← mp.log 2)

/-- `gauss_kuzmin.py` 115-127 `invsf` -/
noncomputable def invsf (p : Num) : M Num := do
  let p ← common.validateP p
  if p =. 0 then return pinf
  let t ← mp.powm1 2 p
  mp.powm1 t (-1)

/-- `gauss_kuzmin.py` 130-134 `mode`; the code returns `mp.one`. -/
def mode : M ℤ := .ok 1

/-- `gauss_kuzmin.py` 137-141 `median` -/
noncomputable def median : M Num := .ok 2

/-- `gauss_kuzmin.py` 144-148 `mean` -/
noncomputable def mean : M Num := .ok pinf

/-- `gauss_kuzmin.py` 151-155 `var` -/
noncomputable def var : M Num := .ok pinf

end Mpsci.gauss_kuzmin
