import Verif.Base.Mp

/-! Models of `mpsci/fun/_xlogy.py` and `mpsci/fun/_powm1.py`. -/

namespace Mpsci.fun_

open Classical Num

/-- `_xlogy.py` 8-20. -/
noncomputable def xlogy (x y : Num) : M Num := do
  if mp.isnan x ∨ mp.isnan y then
    return nan
  else if x =. 0 then
    return 0
  else
    return x * (← mp.log y)

/-- `_xlogy.py` 28-43. -/
noncomputable def xlog1py (x y : Num) : M Num := do
  if mp.isnan x ∨ mp.isnan y then
    return nan
  else if x =. 0 then
    return 0
  else
    return x * (← mp.log1p y)

/-- `_powm1.py` 5-18. -/
noncomputable def invPowm1 (t y : Num) : M Num := do
  if y =. 0 then
    throw .valueError
  else if t ≤ fin (-1) then
    throw .valueError
  else
    return mp.exp (← xlog1py (← 1 /. y) t)

/-- `_powm1.py` 21-50. -/
noncomputable def pow1pm1 (x y : Num) : M Num := do
  return mp.expm1 (← xlog1py y x)

/-- `_powm1.py` 58-71. -/
noncomputable def invPow1pm1 (t y : Num) : M Num := do
  if y =. 0 then
    throw .valueError
  else if t ≤ fin (-1) then
    throw .valueError
  else
    return mp.expm1 (← xlog1py (← 1 /. y) t)

end Mpsci.fun_
