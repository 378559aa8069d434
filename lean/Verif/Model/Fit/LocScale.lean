import Verif.Model.Dist.Laplace
import Verif.Model.Dist.Uniform
import Verif.Model.Dist.Logistic
import Verif.Model.Dist.Gumbel
import Verif.Model.Stats.Basic
import Verif.Base.Loop
import Verif.Base.Py
import Verif.Base.Sort

/-! Models of the estimators of the location-scale families.

`mp.findroot` is a parameter, `findroot` (one unknown: function, starting points) or `findroot2` (two unknowns).  A
parameter that may be `None` is an `Option`.  Data that are already mpmath numbers are not converted. -/

namespace Mpsci.laplace

open Classical Num common

/-- `laplace.py` 198-210, the median of the sorted data; `x[i]` raises IndexError out of range. -/
noncomputable def mleLoc (x : List Num) : M Num := do
  let x := py.sorted x
  let n : ℤ := x.length
  let m := n / 2
  if n % 2 = 1 then py.item x m
  else ((← py.item x (m - 1)) + (← py.item x m)) /. 2

/-- `laplace.py` 173-224. -/
noncomputable def mle (x : List Num) (loc scale : Option Num) : M (Num × Num) := do
  let locEst ← match loc with
    | some loc => pure loc
    | none => mleLoc x
  match scale with
  | some scale =>
    if scale ≤ 0 then throw .valueError
    return (locEst, scale)
  | none => return (locEst, ← stats.mean (x.map fun t => Num.abs (t - locEst)))

/-- `laplace.py` 228-238. -/
noncomputable def mom (x : List Num) : M (Num × Num) := do
  let m1 ← stats.mean x
  let m2 ← stats.mean (x.map fun t => mp.ipow t 2)
  return (m1, ← mp.sqrt (← (m2 - mp.ipow m1 2) /. 2))

end Mpsci.laplace

namespace Mpsci.uniform

open Classical Num common

/-- `uniform.py` 164-171. -/
noncomputable def mle (x : List Num) : M (Num × Num) := do
  return (← py.min x, ← py.max x)

/-- `uniform.py` 175-185. -/
noncomputable def mom (x : List Num) : M (Num × Num) := do
  let m1 ← stats.mean x
  let m2 ← stats.mean (x.map fun t => mp.ipow t 2)
  let v ← mp.sqrt (3 * (m2 - mp.ipow m1 2))
  return (m1 - v, m1 + v)

end Mpsci.uniform

namespace Mpsci.logistic

open Classical Num common

/-- `logistic.py` 129-140. -/
noncomputable def mom (x : List Num) : M (Num × Num) := do
  let m1 ← stats.mean x
  let m2 ← stats.mean (x.map fun t => mp.ipow t 2)
  return (m1, ← (← mp.sqrt (3 * (m2 - mp.ipow m1 2))) /. mp.pi)

/-- `logistic.py` 144-154. -/
noncomputable def nll (x : List Num) (loc scale : Num) : M Num := do
  let (loc, scale) ← validateLocScale loc scale
  let v ← x.mapM fun t => do mp.log (mp.sech (← (t - loc) /. (2 * scale)))
  return stats.len x * (← mp.log (4 * scale)) - 2 * mp.fsum v

/-- `logistic.py` 157-159. -/
noncomputable def mleLocEq (loc scale : Num) (x : List Num) : M Num := do
  let v ← x.mapM fun t => do return mp.tanh (← (t - loc) /. (2 * scale))
  return mp.fsum v

/-- `logistic.py` 162-165. -/
noncomputable def mleScaleEq (loc scale : Num) (x : List Num) : M Num := do
  let v ← x.mapM fun t => do return t * mp.tanh (← (t - loc) /. (2 * scale))
  return -stats.len x + (← mp.fsum v /. scale)

/-- `logistic.py` 168-191. -/
noncomputable def mle (findroot2 : (Num → Num → M (Num × Num)) → Num × Num → M (Num × Num)) (x : List Num) :
    M (Num × Num) := do
  let start ← mom x
  let (loc1, scale1) ← findroot2
    (fun loc scale => do return (← mleLocEq loc scale x, ← mleScaleEq loc scale x)) start
  return (loc1, Num.abs scale1)

end Mpsci.logistic

namespace Mpsci.gumbel_max

open Classical Num common

/-- `gumbel_max.py` 135-145. -/
noncomputable def nll (x : List Num) (loc scale : Num) : M Num := do
  let (loc, scale) ← validateLocScale loc scale
  let z ← x.mapM fun t => (t - loc) /. scale
  let t1 := stats.len x * (← mp.log scale)
  let t2 := mp.fsum z
  let t3 := mp.fsum (z.map fun t => mp.exp (-t))
  return t1 + t2 + t3

/-- `gumbel_max.py` 148-152. -/
noncomputable def mleScaleFunc (scale : Num) (x : List Num) (xbar : Num) : M Num := do
  let emx ← x.mapM fun t => do return mp.exp (← -t /. scale)
  let s1 := mp.fsum (List.zipWith (fun t e => t * e) x emx)
  let s2 := mp.fsum emx
  return s2 * (xbar - scale) - s1

/-- `gumbel_max.py` 169-177 and `gumbel_min.py` 160-168 (the same code), with `func` for
`lambda s: _mle_scale_func(s, x, xbar)`.  The loop state is `(s1, sign1, s2, sign2)` and a flag that says that `break` was
reached.  The constants 0.9 and 1.1 are Python floats; here they are the decimal numbers. -/
noncomputable def bracketStep (func : Num → M Num) (st : Num × Num × Num × Num × Bool) :
    M (Num × Num × Num × Num × Bool) := do
  let (s1, _, s2, sign2, _) := st
  let s1 := fin (9 / 10) * s1
  let sign1 := mp.sign (← func s1)
  if sign1 * sign2 ≤ 0 then return (s1, sign1, s2, sign2, true)
  let s2 := fin (11 / 10) * s2
  let sign2 := mp.sign (← func s2)
  if sign1 * sign2 ≤ 0 then return (s1, sign1, s2, sign2, true)
  return (s1, sign1, s2, sign2, false)

/-- `gumbel_max.py` 164-189 and `gumbel_min.py` 155-180 (the same code).  `sign1` has no value before the loop (here 0);
the loop body runs at least once. -/
noncomputable def solveFrom (findroot : (Num → M Num) → Num → Num → M Num) (fuel : ℕ) (func : Num → M Num) (s0 : Num) :
    M Num := do
  let sign2 := mp.sign (← func s0)
  let (s1, sign1, s2, sign2, _) ← loop (fun st => pure (¬ st.2.2.2.2 = true)) (bracketStep func) fuel
    (s0, 0, s0, sign2, false)
  if sign1 =. 0 then return s1
  if sign2 =. 0 then return s2
  findroot func s1 s2

/-- `gumbel_max.py` 155-189. -/
noncomputable def solveMleScale (findroot : (Num → M Num) → Num → Num → M Num) (fuel : ℕ) (x : List Num) : M Num := do
  let xbar ← stats.mean x
  let s0 ← stats.std x
  if s0 =. 0 then return s0
  solveFrom findroot fuel (fun t => mleScaleFunc t x xbar) s0

/-- `gumbel_max.py` 192-195. -/
noncomputable def mleScaleWithFixedLoc (scale : Num) (x : List Num) (loc : Num) : M Num := do
  let z ← x.mapM fun t => (t - loc) /. scale
  return (← stats.mean (z.map fun t => mp.expm1 (-t) * t)) + 1

/-- `gumbel_max.py` 199-257.  `findroot1` is `mp.findroot` with one starting point. -/
noncomputable def mle (findroot : (Num → M Num) → Num → Num → M Num) (findroot1 : (Num → M Num) → Num → M Num)
    (fuel : ℕ) (x : List Num) (loc scale : Option Num) : M (Num × Num) := do
  match scale, loc with
  | none, some loc =>
    let s0 ← stats.std (x.map fun t => t - loc)
    return (loc, ← findroot1 (fun t => mleScaleWithFixedLoc t x loc) s0)
  | scale, loc =>
    let scale ← match scale with
      | none => solveMleScale findroot fuel x
      | some scale => pure scale
    match loc with
    | none =>
      let ex ← x.mapM fun t => do return mp.exp (← -t /. scale)
      return (-scale * (← mp.log (← stats.mean ex)), scale)
    | some loc => return (loc, scale)

/-- `gumbel_max.py` 261-273. -/
noncomputable def mom (x : List Num) : M (Num × Num) := do
  let m1 ← stats.mean x
  let m2 ← stats.mean (x.map fun t => mp.ipow t 2)
  let scale ← (← mp.sqrt (6 * (m2 - mp.ipow m1 2))) /. mp.pi
  return (m1 - scale * mp.euler, scale)

end Mpsci.gumbel_max

namespace Mpsci.gumbel_min

open Classical Num common

/-- `gumbel_min.py` 126-136. -/
noncomputable def nll (x : List Num) (loc scale : Num) : M Num := do
  let (loc, scale) ← validateLocScale loc scale
  let z ← x.mapM fun t => (t - loc) /. scale
  let t1 := stats.len x * (← mp.log scale)
  let t2 := -mp.fsum z
  let t3 := mp.fsum (z.map fun t => mp.exp t)
  return t1 + t2 + t3

/-- `gumbel_min.py` 139-143. -/
noncomputable def mleScaleFunc (scale : Num) (x : List Num) (xbar : Num) : M Num := do
  let emx ← x.mapM fun t => do return mp.exp (← t /. scale)
  let s1 := mp.fsum (List.zipWith (fun t e => t * e) x emx)
  let s2 := mp.fsum emx
  return s2 * (xbar + scale) - s1

/-- `gumbel_min.py` 146-180. -/
noncomputable def solveMleScale (findroot : (Num → M Num) → Num → Num → M Num) (fuel : ℕ) (x : List Num) : M Num := do
  let xbar ← stats.mean x
  let s0 ← stats.std x
  if s0 =. 0 then return s0
  gumbel_max.solveFrom findroot fuel (fun t => mleScaleFunc t x xbar) s0

/-- `gumbel_min.py` 183-186. -/
noncomputable def mleScaleWithFixedLoc (scale : Num) (x : List Num) (loc : Num) : M Num := do
  let z ← x.mapM fun t => (t - loc) /. scale
  return 1 - (← stats.mean (z.map fun t => mp.expm1 t * t))

/-- `gumbel_min.py` 190-248. -/
noncomputable def mle (findroot : (Num → M Num) → Num → Num → M Num) (findroot1 : (Num → M Num) → Num → M Num)
    (fuel : ℕ) (x : List Num) (loc scale : Option Num) : M (Num × Num) := do
  match scale, loc with
  | none, some loc =>
    let s0 ← stats.std (x.map fun t => t - loc)
    return (loc, ← findroot1 (fun t => mleScaleWithFixedLoc t x loc) s0)
  | scale, loc =>
    let scale ← match scale with
      | none => solveMleScale findroot fuel x
      | some scale => pure scale
    match loc with
    | none =>
      let ex ← x.mapM fun t => do return mp.exp (← t /. scale)
      return (scale * (← mp.log (← stats.mean ex)), scale)
    | some loc => return (loc, scale)

/-- `gumbel_min.py` 252-264. -/
noncomputable def mom (x : List Num) : M (Num × Num) := do
  let m1 ← stats.mean x
  let m2 ← stats.mean (x.map fun t => mp.ipow t 2)
  let scale ← (← mp.sqrt (6 * (m2 - mp.ipow m1 2))) /. mp.pi
  return (m1 + scale * mp.euler, scale)

end Mpsci.gumbel_min
