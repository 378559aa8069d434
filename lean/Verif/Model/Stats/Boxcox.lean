import Verif.Model.Fun.Powm1
import Verif.Model.Stats.Basic
import Verif.Base.Diff

/-! Models of `mpsci/stats/_boxcox.py`, `_yeojohnson.py`, `_boxcox_mle.py` and `_yeojohnson_mle.py`. -/

namespace Mpsci.stats

open Classical Num fun_

/-- `_boxcox.py` 10-28. -/
noncomputable def boxcox (x lmbda : Num) : M Num := do
  if lmbda =. 0 then
    mp.log x
  else
    (← mp.powm1 x lmbda) /. lmbda

/-- `_boxcox.py` 45-66. -/
noncomputable def boxcox1p (x lmbda : Num) : M Num := do
  if lmbda =. 0 then
    mp.log1p x
  else
    (← pow1pm1 x lmbda) /. lmbda

/-- `_boxcox.py` 83-93. -/
noncomputable def invBoxcox (y lmbda : Num) : M Num := do
  if lmbda =. 0 then
    return mp.exp y
  else
    invPowm1 (lmbda * y) lmbda

/-- `_boxcox.py` 96-106. -/
noncomputable def invBoxcox1p (y lmbda : Num) : M Num := do
  if lmbda =. 0 then
    return mp.expm1 y
  else
    invPow1pm1 (lmbda * y) lmbda

/-- `_yeojohnson.py` 10-28. -/
noncomputable def yeojohnson (x lmbda : Num) : M Num := do
  if x ≥ 0 then
    if lmbda =. 0 then
      mp.log1p x
    else
      (← pow1pm1 x lmbda) /. lmbda
  else if lmbda =. 2 then
    return -(← mp.log1p (-x))
  else
    let lmb2 := 2 - lmbda
    (-(← pow1pm1 (-x) lmb2)) /. lmb2

/-- `_yeojohnson.py` 32-50. -/
noncomputable def invYeojohnson (x lmbda : Num) : M Num := do
  if x ≥ 0 then
    if lmbda =. 0 then
      return mp.expm1 x
    else
      invPow1pm1 (lmbda * x) lmbda
  else if lmbda =. 2 then
    return -mp.expm1 (-x)
  else
    let lmb2 := 2 - lmbda
    return -(← invPow1pm1 (-lmb2 * x) lmb2)

/-- `_boxcox_mle.py` 23-29: the transformed data, up to a constant -/
noncomputable def boxcoxData (lam : Num) (x logdata : List Num) : M (List Num) := do
  if lam =. 0 then return logdata
  else x.mapM fun t => do (← mp.power t lam) /. lam

/-- `_boxcox_mle.py` 11-31. -/
noncomputable def boxcoxLlf (lam : Num) (x : List Num) : M Num := do
  let n := len x
  let logdata ← x.mapM mp.log
  let sumlogdata := mp.fsum logdata
  let variance ← var (← boxcoxData lam x logdata)
  return (lam - 1) * sumlogdata - (← n /. 2) * (← mp.log variance)

/-- `_boxcox_mle.py` 35-39. -/
noncomputable def boxcoxLlfDeriv (lam : Num) (x : List Num) : M Num := mp.diff (fun t => boxcoxLlf t x) lam

/-- `_boxcox_mle.py` 42-69. -/
noncomputable def boxcoxMle (findroot : (Num → M Num) → Num → M Num) (x : List Num) (lam0 : Num := 0) : M Num :=
  findroot (fun t => boxcoxLlfDeriv t x) lam0

/-- `_yeojohnson_mle.py` 9-45. -/
noncomputable def yeojohnsonLlf (lam : Num) (x : List Num) : M Num := do
  let n := len x
  if x.length = 0 then throw .valueError
  else
    let y ← x.mapM fun t => yeojohnson t lam
    let yVar ← var y
    let terms ← x.mapM fun t => do return mp.sign t * (← mp.log1p (Num.abs t))
    let log1psum := mp.fsum terms
    let q ← (-n) /. 2
    return q * (← mp.log yVar) + (lam - 1) * log1psum

/-- `_yeojohnson_mle.py` 63-78. -/
noncomputable def yeojohnsonMle (findroot : (Num → M Num) → Num → M Num) (x : List Num) (lam0 : Num := 1) : M Num :=
  findroot (fun t => mp.diff (fun s => yeojohnsonLlf s x) t) lam0

end Mpsci.stats
