import Verif.Base.PyNum

/-! Models of `mpsci/fun/_logsumexp.py` and `mpsci/fun/_logbinomial.py`. -/

namespace Mpsci.fun_

open Classical Num

/-- `_logsumexp.py` 8-51.  `zip` stops at the shorter list. -/
noncomputable def logsumexp (logs : List Num) (weights : Option (List Num) := none) : M Num := do
  let logMax ← py.max logs
  let exps := logs.map fun t => mp.exp (t - logMax)
  match weights with
  | none => return (← mp.log (mp.fsum exps)) + logMax
  | some weights =>
    let weighted := List.zipWith (fun w e => w * e) weights exps
    return (← mp.log (mp.fsum weighted)) + logMax

/-- `_logbinomial.py` 8-37. -/
noncomputable def logbinomial (n k : Num) : M Num := do
  if n < 0 then throw .valueError
  if k < 0 then throw .valueError
  if k > n then throw .valueError
  return (← mp.loggamma (n + 1)) - (← mp.loggamma (k + 1)) -
    (← mp.loggamma (mp.fsum [n + 1, -k]))

end Mpsci.fun_
