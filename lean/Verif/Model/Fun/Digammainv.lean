import Verif.Base.Digamma
import Verif.Base.Const

/-! Model of `mpsci/fun/_digammainv.py`. -/

namespace Mpsci.fun_

open Classical Num

/-- `_digammainv.py` 46-51.  The constants `2.332` and `0.08661` are decimal numbers in the model (binary floating point
numbers in the code). -/
noncomputable def digammainvStart (y : Num) : M Num := do
  if y > fin (-(1 / 8)) then return mp.exp y + fin (1 / 2)
  else if y > fin (-3) then return mp.exp (← y /. fin (2332 / 1000)) + fin (8661 / 100000)
  else (-1) /. (y + mp.euler)

/-- `_digammainv.py` 8-57; `findroot` is `mp.findroot(f, (a, b), solver='anderson')`. -/
noncomputable def digammainv (findroot : (Num → M Num) → Num → Num → M Num) (y : Num) : M Num := do
  let x0 ← digammainvStart y
  findroot (fun x => do return (← mp.digamma x) - y) (← 4 * x0 /. 5) (← 5 * x0 /. 4)

end Mpsci.fun_
