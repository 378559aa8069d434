import Verif.Base.Discrete
import Verif.Model.Common

/-! Model of `mpsci/distributions/poisson.py` (`k` a Python integer). -/

namespace Mpsci.poisson

open Classical Num

/-- `poisson.py` 18-21 `_validate_lam` -/
noncomputable def validateLam (lam : Num) : M Num :=
  if lam ≤ 0 then .error .valueError else .ok lam

/-- `poisson.py` 45-53 `pmf` -/
noncomputable def pmf (k : ℤ) (lam : Num) : M Num := do
  let lam ← validateLam lam
  if k < 0 then return 0
  ((← mp.power lam (ofInt k)) * mp.exp (-lam)) /. (← mp.factorial k)

/-- `poisson.py` 56-64 `logpmf` -/
noncomputable def logpmf (k : ℤ) (lam : Num) : M Num := do
  let lam ← validateLam lam
  if k < 0 then return ninf
  return ofInt k * (← mp.log lam) - lam - (← mp.loggamma (ofInt (k + 1)))

/-- `poisson.py` 67-75 `cdf` -/
noncomputable def cdf (k : ℤ) (lam : Num) : M Num := do
  let lam ← validateLam lam
  if k < 0 then return 0
  mp.gammaincUpperReg (ofInt (k + 1)) lam

/-- `poisson.py` 78-86 `sf` -/
noncomputable def sf (k : ℤ) (lam : Num) : M Num := do
  let lam ← validateLam lam
  if k < 0 then return 1
  mp.gammaincLowerReg (ofInt (k + 1)) lam

/-- `poisson.py` 89-95 `mean` -/
noncomputable def mean (lam : Num) : M Num := validateLam lam

/-- `poisson.py` 98-119 `mode` -/
noncomputable def mode (lam : Num) : M ℤ := do
  let lam ← validateLam lam
  return (← py.int (mp.ceil lam)) - 1

/-- `poisson.py` 122-128 `var` -/
noncomputable def var (lam : Num) : M Num := validateLam lam

/-- `poisson.py` 131-137 `skewness` -/
noncomputable def skewness (lam : Num) : M Num := do
  let lam ← validateLam lam
  1 /. (← mp.sqrt lam)

/-- `poisson.py` 140-146 `kurtosis` -/
noncomputable def kurtosis (lam : Num) : M Num := do
  let lam ← validateLam lam
  1 /. lam

end Mpsci.poisson
