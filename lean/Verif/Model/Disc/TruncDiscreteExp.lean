import Verif.Base.Discrete
import Verif.Model.Common

/-! Model of `mpsci/distributions/trunc_discrete_exp.py` (`k` and `n` Python integers, which `_validate_int` and `int` return unchanged).
`__all__` of the module also names `skewness`, `kurtosis`, `nll` and `mle`, which are not defined in it. -/

namespace Mpsci.trunc_discrete_exp

open Classical Num

/-- `trunc_discrete_exp.py` 28-35 `_validate_params` -/
noncomputable def validateParams (lam : Num) (n : ℤ) : M (Num × ℤ) := do
  if n < 0 then throw .valueError
  if lam < 0 then throw .valueError
  return (lam, n)

/-- `trunc_discrete_exp.py` 38-55 `support` -/
noncomputable def support (lam : Num) (n : ℤ) : M (List ℤ) := do
  let (_, n) ← validateParams lam n
  return py.range 0 n

/-- `trunc_discrete_exp.py` 58-71 `logpmf` -/
noncomputable def logpmf (k : ℤ) (lam : Num) (n : ℤ) : M Num := do
  let (lam, n) ← validateParams lam n
  if k < 0 then return ninf
  if k ≥ n then return ninf
  if lam =. 0 then return -(← mp.log (ofInt n))
  return (← mp.log1p (-(mp.exp (-lam)))) - lam * ofInt k - (← mp.log1p (-(mp.exp (-lam * ofInt n))))

/-- `trunc_discrete_exp.py` 74-87 `pmf` -/
noncomputable def pmf (k : ℤ) (lam : Num) (n : ℤ) : M Num := do
  let (lam, n) ← validateParams lam n
  if k < 0 then return 0
  if k ≥ n then return 0
  if lam =. 0 then return ← 1 /. ofInt n
  return mp.exp (← logpmf k lam n)

/-- `trunc_discrete_exp.py` 90-103 `cdf` -/
noncomputable def cdf (k : ℤ) (lam : Num) (n : ℤ) : M Num := do
  let (lam, n) ← validateParams lam n
  if k < 0 then return 0
  if k ≥ n then return 1
  if lam =. 0 then return ← (ofInt k + 1) /. ofInt n
  mp.expm1 (-lam * ofInt (k + 1)) /. mp.expm1 (-lam * ofInt n)

/-- `trunc_discrete_exp.py` 106-119 `sf` -/
noncomputable def sf (k : ℤ) (lam : Num) (n : ℤ) : M Num := do
  let (lam, n) ← validateParams lam n
  if k < 0 then return 1
  if k ≥ n then return 0
  if lam =. 0 then return ← (ofInt (n - k) - 1) /. ofInt n
  mp.expm1 (lam * ofInt (n - k - 1)) /. mp.expm1 (lam * ofInt n)

/-- `trunc_discrete_exp.py` 122-131 `mean` -/
noncomputable def mean (lam : Num) (n : ℤ) : M Num := do
  let (lam, n) ← validateParams lam n
  if lam =. 0 then return ← (ofInt n - 1) /. 2
  let nlam := ofInt n * lam
  return (← (-(mp.exp (-lam))) /. mp.expm1 (-lam)) + (← (ofInt n * mp.exp (-nlam)) /. mp.expm1 (-nlam))

/-- `trunc_discrete_exp.py` 134-141 `mode`; the parameters are not validated. -/
def mode (_lam : Num) (_n : ℤ) : M ℤ := .ok 0

/-- `trunc_discrete_exp.py` 144-153 `var` -/
noncomputable def var (lam : Num) (n : ℤ) : M Num := do
  let (lam, n) ← validateParams lam n
  if lam =. 0 then return ← (mp.ipow (ofInt n) 2 - 1) /. 12
  let nlam := ofInt n * lam
  return (← mp.exp (-lam) /. mp.ipow (mp.expm1 (-lam)) 2) - (← (mp.ipow (ofInt n) 2 * mp.exp (-nlam)) /. mp.ipow (mp.expm1 (-nlam)) 2)

/-- `trunc_discrete_exp.py` 156-162 `entropy` -/
noncomputable def entropy (lam : Num) (n : ℤ) : M Num := do
  let (lam, n) ← validateParams lam n
  return -(← logpmf 0 lam n) + lam * (← mean lam n)

end Mpsci.trunc_discrete_exp
