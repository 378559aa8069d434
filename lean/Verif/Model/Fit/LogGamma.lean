import Verif.Model.Dist.LogGamma
import Verif.Model.Stats.Basic
import Verif.Model.Fun.Digammainv
import Verif.Model.Fit.Param

/-! Model of `nll` and `mle` of `mpsci/distributions/loggamma.py`. -/

namespace Mpsci.loggamma

open Classical Num common

/-- `loggamma.py` 230-238 -/
noncomputable def nll (x : List Num) (k theta : Num) : M Num := do
  let (k, theta) ← validateParams k theta
  let x ← validateXBounds x (some ninf) (some pinf) false false
  return -mp.fsum (← x.mapM fun xi => logpdf xi k theta)

/-- `loggamma.py` 247-248 and 259-260 -/
noncomputable def scaleEq (x : List Num) (k scale : Num) : M Num := do
  let t ← x.mapM fun x1 => do return x1 * (mp.exp (← x1 /. scale) - k)
  return -stats.len x * scale + mp.fsum t

/-- `loggamma.py` 243-248 -/
noncomputable def shapeScaleEq (x : List Num) (k scale : Num) : M (Num × Num) := do
  let z ← x.mapM fun x1 => x1 /. scale
  return (-stats.len x * (← mp.digamma k) + mp.fsum z, ← scaleEq x k scale)

/-- `loggamma.py` 270-306.  `findroot1`, `findroot2` are `mp.findroot` with one and two unknowns, `findroot` is the root
finder of `digammainv`. -/
noncomputable def mle (findroot : (Num → M Num) → Num → Num → M Num) (findroot1 : (Num → M Num) → Num → M Num)
    (findroot2 : (Num → Num → M (Num × Num)) → Num × Num → M (Num × Num)) (x : List Num) (k theta : Param) :
    M (Num × Num) := do
  let x ← validateXBounds x (some ninf) (some pinf) false false
  match k, theta with
  | .fixed k, .fixed theta => validateParams k theta
  | .fixed k, theta => do
    let (k, theta0) ← validateParams k theta.start
    return (k, ← findroot1 (fun s => scaleEq x k s) theta0)
  | _, .fixed theta => do
    let (_, theta) ← validateParams 1 theta
    let xs ← x.mapM fun t => t /. theta
    return (← fun_.digammainv findroot (← stats.mean xs), theta)
  | k, theta => do
    let (k0, theta0) ← validateParams k.start theta.start
    findroot2 (fun k s => shapeScaleEq x k s) (k0, theta0)

end Mpsci.loggamma
