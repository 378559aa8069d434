import Verif.Model.Dist.Nakagami
import Verif.Model.Stats.Basic

/-! Model of `nll`, `nll_grad` and `mle` of `mpsci/distributions/nakagami.py`. -/

namespace Mpsci.nakagami

open Classical Num common

/-- `nakagami.py` 176-188 -/
noncomputable def nll (x : List Num) (nu loc scale : Num) : M Num := do
  let n := stats.len x
  let (nu, loc, scale) ← validateParams nu loc scale
  let x ← validateXBounds x (some loc) none true false
  let z ← x.mapM fun t => (t - loc) /. scale
  let logsum := mp.fsum (← z.mapM mp.log)
  let sqsum := mp.fsum (z.map fun t => mp.ipow t 2)
  let ll := n * ((← mp.log 2) + nu * (← mp.log nu) - (← mp.loggamma nu) - (← mp.log scale)) + (2 * nu - 1) * logsum - nu * sqsum
  return -ll

/-- `nakagami.py` 192-207 -/
noncomputable def nllGrad (x : List Num) (nu loc scale : Num) : M (Num × Num × Num) := do
  let n := stats.len x
  let (nu, loc, scale) ← validateParams nu loc scale
  let x ← validateXBounds x (some loc) none true false
  let xloc := x.map fun t => t - loc
  let dldnu := n * (1 + (← mp.log nu) - (← mp.digamma nu))
    + 2 * mp.fsum (← (← xloc.mapM fun t => t /. scale).mapM mp.log)
    - (← mp.fsum (xloc.map fun t => mp.ipow t 2) /. mp.ipow scale 2)
  let sumInv := mp.fsum (← xloc.mapM fun t => 1 /. t)
  let dldloc := -(2 * nu - 1) * sumInv + (← (2 * nu * mp.fsum xloc) /. mp.ipow scale 2)
  let sumSq := mp.fsum (xloc.map fun t => mp.ipow t 2)
  let dldscale := (← (2 * nu) /. scale) * (-n + (← sumSq /. mp.ipow scale 2))
  return (-dldnu, -dldloc, -dldscale)

/-- `nakagami.py` 210-213 -/
noncomputable def mleNuFunc (nu R : Num) : M Num := do
  return (← mp.log nu) - (← mp.digamma nu) - R

/-- `nakagami.py` 216-225 (the floats are exact) -/
noncomputable def estimateNu (R : Num) : M Num :=
  if R ≥ fin 10 then 1 /. R
  else if R < fin (1 / 2) then 1 /. (2 * R)
  else 1 /. (fin (3 / 2) * R)

/-- `nakagami.py` 257-260 -/
noncomputable def mleScale (x : List Num) : Option Num → M Num
  | none => do mp.sqrt (← mp.fsum (x.map fun t => mp.ipow t 2) /. stats.len x)
  | some scale => .ok scale

/-- `stats.mean([2*mp.log(t/scale0) for t in x])`, in `nakagami.py` 266 and 269 -/
noncomputable def meanLog2 (x : List Num) (scale0 : Num) : M Num := do
  stats.mean ((← (← x.mapM fun t => t /. scale0).mapM mp.log).map fun t => 2 * t)

/-- `nakagami.py` 265-269 -/
noncomputable def mleR (x : List Num) (scale : Option Num) (scale0 : Num) : M Num :=
  match scale with
  | none => do return -(← meanLog2 x scale0)
  | some _ => do
    return (← stats.mean ((← x.mapM fun t => t /. scale0).map fun t => mp.ipow t 2)) - (← meanLog2 x scale0) - 1

/-- `nakagami.py` 262-271 -/
noncomputable def mleNu (findroot : (Num → M Num) → Num → M Num) (x : List Num) (scale : Option Num) (scale0 : Num) :
    Option Num → M Num
  | some nu => .ok nu
  | none => do
    let R ← mleR x scale scale0
    let nu0 ← estimateNu R
    findroot (fun nu => mleNuFunc nu R) nu0

/-- `nakagami.py` 229-273 -/
noncomputable def mle (findroot : (Num → M Num) → Num → M Num) (x : List Num) (nu loc scale : Option Num := none) :
    M (Num × Num × Num) :=
  match nu, loc, scale with
  | some nu, some loc, some scale => .ok (nu, loc, scale)
  | _, none, _ => .error .valueError
  | nu, some loc, scale => do
    let x ← validateXBounds x (some loc) none true false
    let x := x.map fun t => t - loc
    let scale0 ← mleScale x scale
    let nu0 ← mleNu findroot x scale scale0 nu
    return (nu0, loc, scale0)

end Mpsci.nakagami
