import Verif.Model.Dist.Beta
import Verif.Model.Stats.Basic
import Verif.Model.Fit.Param
import Verif.Base.Digamma

/-! Model of `nll`, `mle` and `mom` of `mpsci/distributions/beta.py`. -/

namespace Mpsci.beta

open Classical Num common

/-- `beta.py` 238-244 -/
noncomputable def nll (x : List Num) (a b : Num) : M Num := do
  let (a, b) ← validateAB a b
  let x ← validateXBounds x (some 0) (some 1) true true
  return -mp.fsum (← x.mapM fun t => logpdf t a b)

/-- `beta.py` 247-249 -/
noncomputable def mleFunc (a b n s : Num) : M Num := do
  let psiab ← mp.digamma (a + b)
  return s - n * (-psiab + (← mp.digamma a))

/-- The check of a fixed parameter, `beta.py` 260-265 and 266-271 -/
noncomputable def checkFixed : Param → M Unit
  | .fixed v => if v ≤ 0 then throw .valueError else return ()
  | _ => return ()

/-- The starting value of a free parameter: the given one, or the default -/
noncomputable def startOr : Param → Num → Num
  | .none, v => v
  | .initial v, _ => v
  | .fixed v, _ => v

/-- `beta.py` 274-291: both parameters free -/
noncomputable def mleBoth (findroot2 : (Num → Num → M (Num × Num)) → Num × Num → M (Num × Num)) (x : List Num) (xbar : Num) (pa pb : Param) :
    M (Num × Num) := do
  let s1 := mp.fsum (← x.mapM fun t => mp.log t)
  let s2 := mp.fsum (← x.mapM fun t => mp.log1p (-t))
  let fac := (← (xbar * (1 - xbar)) /. (← stats.var x)) - 1
  findroot2 (fun a b => do return (← mleFunc a b (stats.len x) s1, ← mleFunc b a (stats.len x) s2))
    (startOr pa (xbar * fac), startOr pb ((1 - xbar) * fac))

/-- `beta.py` 304-310: one parameter `p` free, `b` the other one.  With a given starting value the default is not computed; it
only could fail where the data do not pass the check. -/
noncomputable def mleOne (findroot1 : (Num → M Num) → Num → M Num) (x : List Num) (xbar : Num) (p : Param) (b : Num) : M Num := do
  let s1 := mp.fsum (← x.mapM fun t => mp.log t)
  let d ← (b * xbar) /. (1 - xbar)
  findroot1 (fun a => mleFunc a b (stats.len x) s1) (startOr p d)

/-- `beta.py` 253-314.  `findroot1`, `findroot2` are `mp.findroot` with one and two unknowns. -/
noncomputable def mle (findroot1 : (Num → M Num) → Num → M Num) (findroot2 : (Num → Num → M (Num × Num)) → Num × Num → M (Num × Num))
    (x : List Num) (pa pb : Param) : M (Num × Num) := do
  let x ← validateXBounds x (some 0) (some 1) true true
  let xbar ← stats.mean x
  checkFixed pa
  checkFixed pb
  match pa, pb with
  | .fixed a, .fixed b => return (a, b)
  | .fixed a, pb => return (a, ← mleOne findroot1 (x.map fun t => 1 - t) (1 - xbar) pb a)
  | pa, .fixed b => return (← mleOne findroot1 x xbar pa b, b)
  | pa, pb => mleBoth findroot2 x xbar pa pb

/-- `beta.py` 318-333 -/
noncomputable def mom (x : List Num) : M (Num × Num) := do
  let x ← validateXBounds x (some 0) (some 1) true true
  let m1 ← stats.mean x
  let m2 ← stats.mean (x.map fun t => mp.ipow t 2)
  let c ← (m1 - m2) /. (m2 - mp.ipow m1 2)
  return (m1 * c, (1 - m1) * c)

end Mpsci.beta
