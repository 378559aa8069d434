import Verif.Model.Dist.Gamma
import Verif.Model.Stats.Basic
import Verif.Model.Fun.Digammainv

/-! Model of `mom`, `mle`, `nll` and its derivatives of `mpsci/distributions/gamma.py`. -/

namespace Mpsci.gamma

open Classical Num common

/-- `gamma.py` 240-250 -/
noncomputable def mom (x : List Num) : M (Num × Num) := do
  let m ← stats.mean x
  let v ← stats.var x
  return (← (mp.ipow m 2) /. v, ← v /. m)

/-- `gamma.py` 275-278, one step of Newton's method -/
noncomputable def newtonStep (s k : Num) : M Num := do
  let delta ← ((← mp.log k) - (← mp.psi 0 k) - s) /. ((← 1 /. k) - (← mp.psi 1 k))
  return k - delta

/-- `gamma.py` 274-280, the loop, which leaves when a step changes nothing -/
noncomputable def newton (s : Num) : ℕ → Num → M Num
  | 0, k => .ok k
  | n + 1, oldk => do
    let k ← newtonStep s oldk
    if k =. oldk then return k
    newton s n k

/-- `gamma.py` 268-280.  `steps` is the number of iterations, 10 in the code. -/
noncomputable def mleK (steps : ℕ) (meanx meanlnx : Num) : M Num := do
  let s := (← mp.log meanx) - meanlnx
  let k ← (3 - s + (← mp.sqrt (mp.ipow (s - 3) 2 + 24 * s))) /. (12 * s)
  newton s steps k

/-- `gamma.py` 253-297.  `findroot` is the root finder of `digammainv`. -/
noncomputable def mle (findroot : (Num → M Num) → Num → Num → M Num) (x : List Num) (k scale : Option Num := none)
    (steps : ℕ := 10) : M (Num × Num) := do
  let meanx ← mp.fsum x /. stats.len x
  let meanlnx ← mp.fsum (← x.mapM mp.log) /. stats.len x
  match k, scale with
  | none, none =>
    let k ← mleK steps meanx meanlnx
    return (k, ← meanx /. k)
  | none, some scale =>
    return (← fun_.digammainv findroot (meanlnx - (← mp.log scale)), scale)
  | some k, none => return (k, ← meanx /. k)
  | some k, some scale => return (k, scale)

/-- `gamma.py` 301-314 -/
noncomputable def nll (x : List Num) (k scale : Num) : M Num := do
  let (k, scale) ← validateParams k scale
  let x ← validateXBounds x (some 0) (some pinf) false true
  let N := stats.len x
  let sumx := mp.fsum x
  let sumlnx := mp.fsum (← x.mapM mp.log)
  let ll := (k - 1) * sumlnx - (← sumx /. scale) - N * k * (← mp.log scale) - N * (← mp.loggamma k)
  return -ll

/-- `gamma.py` 318-330 -/
noncomputable def nllGrad (x : List Num) (k scale : Num) : M (Num × Num) := do
  let (k, scale) ← validateParams k scale
  let N := stats.len x
  let sumx := mp.fsum x
  let sumlnx := mp.fsum (← x.mapM mp.log)
  let dk := sumlnx - N * (← mp.log scale) - N * (← mp.digamma k)
  let dscale := (← sumx /. mp.ipow scale 2) - (← N * k /. scale)
  return (-dk, -dscale)

/-- `gamma.py` 334-348 -/
noncomputable def nllHess (x : List Num) (k scale : Num) : M ((Num × Num) × (Num × Num)) := do
  let (k, scale) ← validateParams k scale
  let N := stats.len x
  let sumx := mp.fsum x
  let dk2 := -N * (← mp.psi 1 k)
  let dkdscale ← (-N) /. scale
  let dscale2 := (← (-2) * sumx /. mp.ipow scale 3) + (← N * k /. mp.ipow scale 2)
  return ((-dk2, -dkdscale), (-dkdscale, -dscale2))

/-- `gamma.py` 352-369 -/
noncomputable def nllInvhess (x : List Num) (k scale : Num) : M ((Num × Num) × (Num × Num)) := do
  let (k, scale) ← validateParams k scale
  let N := stats.len x
  let sumx := mp.fsum x
  let dk2 := -N * (← mp.psi 1 k)
  let dkdscale ← (-N) /. scale
  let dscale2 := (← (-2) * sumx /. mp.ipow scale 3) + (← N * k /. mp.ipow scale 2)
  let det := dk2 * dscale2 - mp.ipow dkdscale 2
  return ((← (-dscale2) /. det, ← dkdscale /. det), (← dkdscale /. det, ← (-dk2) /. det))

end Mpsci.gamma
