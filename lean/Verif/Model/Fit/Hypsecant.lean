import Verif.Model.Dist.Hypsecant
import Verif.Model.Dist.Benktander1
import Verif.Model.Stats.Basic
import Verif.Model.Fit.Param

/-! Models of `hypsecant.mle` and `benktander1.mle`.  `findroot1` and `findroot2` are `mp.findroot` with one and two
unknowns. -/

namespace Mpsci.hypsecant

open Classical Num common

/-- `hypsecant.py` 166, 181: the starting value of the location. -/
noncomputable def startLoc (x : List Num) : Param → M Num
  | .none => stats.mean x
  | .initial v => .ok v
  | .fixed v => .ok v

/-- `hypsecant.py` 170, 185 -/
noncomputable def eq1 (x : List Num) (loc scale : Num) : M Num := do
  return mp.fsum (← x.mapM fun t => do return mp.tanh (← (t - loc) /. scale))

/-- `hypsecant.py` 171-173, 200-202 -/
noncomputable def eq2 (x : List Num) (loc scale : Num) : M Num := do
  let s ← x.mapM fun t => do (t - loc) * mp.tanh (← (t - loc) /. scale) /. scale
  return mp.fsum s - stats.len x

/-- `hypsecant.py` 163-177: both parameters free -/
noncomputable def mleBoth (findroot2 : (Num → Num → M (Num × Num)) → Num × Num → M (Num × Num)) (x : List Num) (loc scale : Param) :
    M (Num × Num) := do
  let loc0 ← startLoc x loc
  let scale0 ← match scale with
    | .initial v => pure v
    | _ => stats.std x
  findroot2 (fun loc scale => do return (← eq1 x loc scale, ← eq2 x loc scale)) (loc0, scale0)

/-- `hypsecant.py` 179-188: `scale` fixed -/
noncomputable def mleLoc (findroot1 : (Num → M Num) → Num → M Num) (x : List Num) (loc : Param) (scale : Num) : M (Num × Num) := do
  let loc0 ← startLoc x loc
  let (loc0, scale) ← validateLocScale loc0 scale
  let locHat ← findroot1 (fun loc => eq1 x loc scale) loc0
  return (locHat, scale)

/-- `hypsecant.py` 190-205: `loc` fixed -/
noncomputable def mleScale (findroot1 : (Num → M Num) → Num → M Num) (x : List Num) (loc : Num) (scale : Param) : M (Num × Num) := do
  let scale0 ← match scale with
    | .initial v => pure v
    | _ => stats.std (x.map fun t => t - loc)
  let (loc, scale0) ← validateLocScale loc scale0
  let scaleHat ← findroot1 (fun scale => eq2 x loc scale) scale0
  return (loc, scaleHat)

/-- `hypsecant.py` 149-209. -/
noncomputable def mle (findroot1 : (Num → M Num) → Num → M Num) (findroot2 : (Num → Num → M (Num × Num)) → Num × Num → M (Num × Num))
    (x : List Num) (loc scale : Param) : M (Num × Num) := do
  let x ← validateXBounds x none none false false
  match loc, scale with
  | .fixed loc, .fixed scale => validateLocScale loc scale
  | .fixed loc, scale => mleScale findroot1 x loc scale
  | loc, .fixed scale => mleLoc findroot1 x loc scale
  | loc, scale => mleBoth findroot2 x loc scale

end Mpsci.hypsecant

namespace Mpsci.benktander1

open Classical Num common

/-- `benktander1.py` 203: one element of `t1` -/
noncomputable def t1 (a b lnx : Num) : Num := 2 * a + 4 * b * lnx + 1

/-- `benktander1.py` 204-205: one element of `t2` -/
noncomputable def t2 (a b lnx : Num) : Num :=
  mp.ipow a 2 + 4 * a * b * lnx + a + 4 * mp.ipow b 2 * mp.ipow lnx 2 + 2 * b * lnx - 2 * b

/-- `benktander1.py` 206-207 -/
noncomputable def dlda (logx : List Num) (a b : Num) : M Num := do
  let q ← (-stats.len logx) /. a
  return q + mp.fsum (← logx.mapM fun lnx => do return (← t1 a b lnx /. t2 a b lnx) - lnx)

/-- `benktander1.py` 208-209 -/
noncomputable def dldb (logx : List Num) (a b : Num) : M Num := do
  return mp.fsum (← logx.mapM fun lnx => do return (← (t1 a b lnx * 2 * lnx - 2) /. t2 a b lnx) - mp.ipow lnx 2)

/-- `benktander1.py` 212-216 -/
noncomputable def startA (x : List Num) : Param → M Num
  | .initial v => .ok v
  | _ => do 1 /. ((← stats.mean x) - 1)

/-- `benktander1.py` 217 -/
noncomputable def startB (a0 : Num) : Param → M Num
  | .initial v => .ok v
  | _ => a0 * (a0 + 1) /. 2

/-- `benktander1.py` 198-229, after the check that no parameter is fixed -/
noncomputable def mleFree (findroot2 : (Num → Num → M (Num × Num)) → Num × Num → M (Num × Num)) (x : List Num) (a b : Param) :
    M (Num × Num) := do
  let x ← validateXBounds x (some 1) none false false
  let logx ← x.mapM mp.log
  let a0 ← startA x a
  let b0 ← startB a0 b
  let start ← validateAB a0 b0
  let (aHat, bHat) ← findroot2 (fun a b => do return (← dlda logx a b, ← dldb logx a b)) start
  if aHat ≤ 0 then .error .runtimeError
  else if bHat ≤ 0 then .error .runtimeError
  else if (← (aHat * (aHat + 1)) /. 2) < bHat then .error .runtimeError
  else return (aHat, bHat)

/-- `benktander1.py` 189-229: fixed parameters are refused. -/
noncomputable def mle (findroot2 : (Num → Num → M (Num × Num)) → Num × Num → M (Num × Num)) (x : List Num) (a b : Param) :
    M (Num × Num) :=
  match a, b with
  | .fixed _, _ => .error .valueError
  | _, .fixed _ => .error .valueError
  | a, b => mleFree findroot2 x a b

end Mpsci.benktander1
