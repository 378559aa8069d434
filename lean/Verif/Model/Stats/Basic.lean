import Verif.Model.Fun.Powm1
import Verif.Base.PyNum

/-! Models of `mpsci/stats/_basic.py`.  Sequences are lists of mpmath numbers; the working
precision (`mp.extraprec`) is not modelled. -/

namespace Mpsci.stats

open Classical Num fun_

/-- `len(x)` as a number. -/
noncomputable def len (x : List Num) : Num := fin (x.length : ℝ)

/-- `_basic.py` 38-56. -/
noncomputable def mean (x : List Num) (weights : Option (List Num) := none) : M Num := do
  match weights with
  | none => mp.fsum x /. len x
  | some weights =>
    if weights.length ≠ x.length then throw .valueError
    if mp.fsum weights =. 0 then throw .zeroDivision
    mp.fsum (List.zipWith (fun t w => t * w) x weights) /. mp.fsum weights

/-- `_basic.py` 59-68.  `(mp.mpf(t) - meanx)**2` is modelled as a product. -/
noncomputable def var (x : List Num) (ddof : Num := 0) : M Num := do
  let sumx := mp.fsum x
  let meanx ← sumx /. len x
  mp.fsum (x.map fun t => (t - meanx) * (t - meanx)) /. (len x - ddof)

/-- `_basic.py` 71-76. -/
noncomputable def std (x : List Num) (ddof : Num := 0) : M Num := do
  mp.sqrt (← var x ddof)

/-- `_basic.py` 79-107. -/
noncomputable def variation (x : List Num) (ddof : Num := 1) : M Num := do
  let s ← std x ddof
  let m ← mean x
  s /. m

/-- `_basic.py` 110-132. -/
noncomputable def gmean (x : List Num) (weights : Option (List Num) := none) : M Num := do
  if ∃ t ∈ x, t < 0 then throw .valueError
  match weights with
  | none =>
    if ∃ t ∈ x, t =. 0 then return 0
    return mp.exp (← mean (← x.mapM mp.log))
  | some weights =>
    let wsum := mp.fsum weights
    if wsum =. 0 then throw .valueError
    let wlogxsum := mp.fsum (← (List.zip x weights).mapM fun q => xlogy q.2 q.1)
    return mp.exp (← wlogxsum /. wsum)

/-- `_basic.py` 135-202.  `nzero` counts everything that is neither `> 0` nor `< 0`. -/
noncomputable def hmean (x : List Num) (weights : Option (List Num) := none) : M Num := do
  let npos := x.countP fun t => t > 0
  let nneg := x.countP fun t => ¬ t > 0 ∧ t < 0
  let nzero := x.countP fun t => ¬ t > 0 ∧ ¬ t < 0
  if nzero > 0 then return 0
  let m ← mean (← x.mapM fun t => 1 /. t) weights
  if m =. 0 then
    if npos > 0 ∧ nneg > 0 then return nan
    if npos > 0 then return pinf
    return ninf
  1 /. m

/-- `_basic.py` 205-224. -/
noncomputable def pmean (x : List Num) (p : Num) (weights : Option (List Num) := none) : M Num := do
  if p =. 0 then
    gmean x weights
  else if p =. 1 then
    mean x weights
  else if p =. -1 then
    hmean x weights
  else if p = pinf ∨ p = ninf then
    if p > 0 then py.max x else py.min x
  else
    mp.power (← mean (← x.mapM fun t => mp.power t p) weights) (← 1 /. p)

/-- `_basic.py` 227-291. -/
noncomputable def lehmerMean (x : List Num) (p : Num) (weights : Option (List Num) := none) :
    M Num := do
  if ∃ t ∈ x, t ≤ 0 then throw .valueError
  if p =. 0 then
    hmean x weights
  else if p =. fin (1 / 2) then
    gmean x weights
  else if p =. 1 then
    mean x weights
  else if p = pinf ∨ p = ninf then
    if p < 0 then py.min x else py.max x
  else
    (← mean (← x.mapM fun t => mp.power t p) weights) /.
      (← mean (← x.mapM fun t => mp.power t (p - 1)) weights)

/-- The groups `(key, len(list(group)))` of `itertools.groupby`: runs of equal consecutive
elements. -/
def groupbyCounts {α : Type} [DecidableEq α] : List α → List (α × ℕ)
  | [] => []
  | a :: l => match groupbyCounts l with
    | [] => [(a, 1)]
    | (b, n) :: r => if a = b then (a, n + 1) :: r else (a, 1) :: (b, n) :: r

/-- `_basic.py` 294-314.  For empty input, `xv, xc = zip(*[])` has nothing to unpack and raises
ValueError. -/
def uniqueCounts {α : Type} [LinearOrder α] (x : List α) : M (List α × List ℕ) :=
  match groupbyCounts (x.mergeSort (fun a b => a ≤ b)) with
  | [] => .error .valueError
  | g => .ok (g.map Prod.fst, g.map Prod.snd)

end Mpsci.stats
