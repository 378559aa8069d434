import Verif.Base.Discrete
import Verif.Model.Common
import Verif.Model.Fun.Log
import Verif.Model.Fun.Powm1

/-! Model of `mpsci/distributions/negative_binomial.py` (`k` a Python integer); `nll` and `mle` are in
`Model/Fit/NegBinomial.lean`. -/

namespace Mpsci.negative_binomial

open Classical Num

/-- `negative_binomial.py` 23-32 `_validate_params` -/
noncomputable def validateParams (r p : Num) (allowNonintegerR : Bool := true) : M (Num × Num) := do
  if r ≤ 0 then throw .valueError
  if ¬ allowNonintegerR then
    if ¬ ofInt (← py.int r) =. r then throw .valueError
  if ¬ (0 ≤ p ∧ p ≤ 1) then throw .valueError
  return (r, p)

/-- `negative_binomial.py` 68-83 `logpmf` -/
noncomputable def logpmf (k : ℤ) (r p : Num) : M Num := do
  let (r, p) ← validateParams r p
  if k < 0 then return ninf
  return (← fun_.logbinomial (ofInt k + r - 1) (ofInt k)) + (← fun_.xlog1py r (-p)) + (← fun_.xlogy (ofInt k) p)

/-- `negative_binomial.py` 87-98 `pmf` -/
noncomputable def pmf (k : ℤ) (r p : Num) : M Num := do
  return mp.exp (← logpmf k r p)

/-- `negative_binomial.py` 102-117 `sf` -/
noncomputable def sf (k : ℤ) (r p : Num) : M Num := do
  let (r, p) ← validateParams r p
  if k < 0 then return 1
  mp.betaincReg (ofInt k + 1) r 0 p

/-- `negative_binomial.py` 121-136 `cdf` -/
noncomputable def cdf (k : ℤ) (r p : Num) : M Num := do
  let (r, p) ← validateParams r p
  if k < 0 then return 0
  mp.betaincReg (ofInt k + 1) r p 1

/-- `negative_binomial.py` 140-152 `mean` -/
noncomputable def mean (r p : Num) : M Num := do
  let (r, p) ← validateParams r p
  p * r /. (1 - p)

/-- `negative_binomial.py` 156-163 `mode` -/
noncomputable def mode (r p : Num) : M ℤ := do
  let (r, p) ← validateParams r p
  if r ≤ 1 then return 0
  return (← py.int (mp.ceil (← (r - 1) * p /. (1 - p)))) - 1

/-- `negative_binomial.py` 167-179 `var` -/
noncomputable def var (r p : Num) : M Num := do
  let (r, p) ← validateParams r p
  p * r /. mp.ipow (1 - p) 2

end Mpsci.negative_binomial
