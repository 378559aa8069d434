import Verif.Model.Disc.NegBinomial
import Verif.Model.Fit.Counts

/-! Model of `nll` and `mle` of `mpsci/distributions/negative_binomial.py`. -/

namespace Mpsci.negative_binomial

open Classical Num common

/-- `negative_binomial.py` 55-64 `_validate_x` -/
noncomputable def validateX (x : List Num) : M (List Num) :=
  x.mapM fun xi => do
    if xi < 0 then throw .valueError
    if ¬ xi =. ofInt (← py.int xi) then throw .valueError
    return xi

/-- `negative_binomial.py` 183-204 `nll` -/
noncomputable def nll (x : List Num) (r p : Num) (counts : Option (List Num) := none) : M Num := do
  let (r, p) ← validateParams r p
  let x ← validateX x
  let counts ← validateCounts x counts true
  nllCounts (logpmf · r p) x counts

/-- `negative_binomial.py` 234-237 `mle_r_eqn` with `p1 = m/(r + m)` -/
noncomputable def eqnFree (x : List Num) (counts : Option (List Num)) (m r : Num) : M Num := do
  let p1 ← m /. (r + m)
  return (← stats.mean (← x.mapM fun xi => mp.digamma (xi + r)) counts) - (← mp.digamma r) + (← mp.log1p (-p1))

/-- `negative_binomial.py` 260-262 `mle_r_eqn` with `p` fixed -/
noncomputable def eqnFixed (x : List Num) (counts : Option (List Num)) (p r : Num) : M Num := do
  return (← stats.mean (← x.mapM fun xi => mp.digamma (xi + r)) counts) - (← mp.digamma r) + (← mp.log1p (-p))

/-- `negative_binomial.py` 218-229, `r` fixed -/
noncomputable def mleFixedR (x : List Num) (counts : Option (List Num)) (r : Num) (p : Param) (allowNonintegerR : Bool) : M (Num × Num) := do
  match p with
  | .fixed p => validateParams r p allowNonintegerR
  | _ =>
    let (r, _) ← validateParams r (fin (1 / 2)) allowNonintegerR
    let m ← stats.mean x counts
    let phat ← m /. (r + m)
    return (r, phat)

/-- `allow_noninteger_r or rhat == int(rhat)` (`negative_binomial.py` 242, 266) -/
noncomputable def accept (rhat : Num) (allowNonintegerR : Bool) : M Bool := do
  if allowNonintegerR then return true
  return decide (rhat =. ofInt (← py.int rhat))

/-- `negative_binomial.py` 231-254, neither fixed -/
noncomputable def mleFree (findroot : (Num → M Num) → Num → M Num) (x : List Num) (counts : Option (List Num)) (r : Param)
    (allowNonintegerR : Bool) : M (Num × Num) := do
  let m ← stats.mean x counts
  let rhat ← findroot (eqnFree x counts m) r.start
  let phat ← m /. (rhat + m)
  if ← accept rhat allowNonintegerR then return (rhat, phat)
  let rhat0 := mp.floor rhat
  let rhat1 := mp.ceil rhat
  let phat0 ← m /. (rhat0 + m)
  let phat1 ← m /. (rhat1 + m)
  let nll0 ← nll x rhat0 phat0 counts
  let nll1 ← nll x rhat1 phat1 counts
  if nll0 ≤ nll1 then return (rhat0, phat0)
  return (rhat1, phat1)

/-- `negative_binomial.py` 255-276, `p` fixed -/
noncomputable def mleFixedP (findroot : (Num → M Num) → Num → M Num) (x : List Num) (counts : Option (List Num)) (r : Param) (p : Num)
    (allowNonintegerR : Bool) : M (Num × Num) := do
  let (_, p) ← validateParams 1 p
  let _ ← stats.mean x counts
  let rhat ← findroot (eqnFixed x counts p) r.start
  if ← accept rhat allowNonintegerR then return (rhat, p)
  let rhat0 := mp.floor rhat
  let rhat1 := mp.ceil rhat
  let nll0 ← nll x rhat0 p counts
  let nll1 ← nll x rhat1 p counts
  if nll0 ≤ nll1 then return (rhat0, p)
  return (rhat1, p)

/-- `negative_binomial.py` 208-276 `mle`; `findroot` is `mp.findroot(f, r0)`. -/
noncomputable def mle (findroot : (Num → M Num) → Num → M Num) (x : List Num) (counts : Option (List Num)) (r p : Param)
    (allowNonintegerR : Bool := true) : M (Num × Num) := do
  let x ← validateX x
  let counts ← validateCounts x counts false
  match r with
  | .fixed r => mleFixedR x counts r p allowNonintegerR
  | r =>
    match p with
    | .fixed p => mleFixedP findroot x counts r p allowNonintegerR
    | _ => mleFree findroot x counts r allowNonintegerR

end Mpsci.negative_binomial
