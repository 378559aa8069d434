import Verif.Base.PyNum
import Verif.Model.Disc.Hypergeometric

/-! Model of `mpsci/distributions/fishers_noncentral_hypergeometric.py`.  `nc` is an mpmath number, the
other arguments are Python integers.  The functions are first modelled without the cache of
`_support_pmf`; the cache is added at the end. -/

namespace Mpsci.fishers_noncentral_hypergeometric

open Classical Num

/-- `fishers_noncentral_hypergeometric.py` 18-30 `support` -/
def support (_nc : Num) (ntotal ngood nsample : ℤ) : M (List ℤ) :=
  hypergeometric.support ntotal ngood nsample

/-- `fishers_noncentral_hypergeometric.py` 37-70 `_support_pmf` -/
noncomputable def supportPmf0 (nc : Num) (ntotal ngood nsample : ℤ) : M (List ℤ × List Num) := do
  let sup ← hypergeometric.support ntotal ngood nsample
  let lpmf ← sup.mapM fun k => hypergeometric.logpmf k ntotal ngood nsample
  let g ← sup.mapM fun k => do
    let s0 ← py.item sup 0
    return (← py.item lpmf (k - s0)) + (← mp.log nc) * ofInt k
  let gmax ← py.max g
  let eg := g.map fun v => mp.exp (v - gmax)
  let egsum := mp.fsum eg
  let values ← eg.mapM fun v => v /. egsum
  return (sup, values)

/-- `fishers_noncentral_hypergeometric.py` 73-120 `support_pmf` -/
noncomputable def supportPmf (nc : Num) (ntotal ngood nsample : ℤ) : M (List ℤ × List Num) := do
  hypergeometric.validate ntotal ngood nsample
  supportPmf0 nc ntotal ngood nsample

/-- Lines 165-168, given the result of `support_pmf`. -/
noncomputable def pmfOf (k : ℤ) (t : List ℤ × List Num) : M Num :=
  if k ∈ t.1 then do py.item t.2 (k - (← py.item t.1 0)) else return 0

/-- `fishers_noncentral_hypergeometric.py` 159-168 `pmf` -/
noncomputable def pmf (k : ℤ) (nc : Num) (ntotal ngood nsample : ℤ) : M Num := do
  hypergeometric.validate ntotal ngood nsample
  pmfOf k (← supportPmf nc ntotal ngood nsample)

/-- Lines 177-182, given the result of `support_pmf`. -/
noncomputable def cdfOf (k : ℤ) (t : List ℤ × List Num) : M Num := do
  if k < (← py.item t.1 0) then return 0
  if k ≥ (← py.item t.1 (-1)) then return 1
  return mp.fsum (py.sliceTo t.2 (k - (← py.item t.1 0) + 1))

/-- `fishers_noncentral_hypergeometric.py` 171-182 `cdf` -/
noncomputable def cdf (k : ℤ) (nc : Num) (ntotal ngood nsample : ℤ) : M Num := do
  hypergeometric.validate ntotal ngood nsample
  cdfOf k (← supportPmf nc ntotal ngood nsample)

/-- Lines 191-196, given the result of `support_pmf`. -/
noncomputable def sfOf (k : ℤ) (t : List ℤ × List Num) : M Num := do
  if k < (← py.item t.1 0) then return 1
  if k ≥ (← py.item t.1 (-1)) then return 0
  return mp.fsum (py.sliceFrom t.2 (k - (← py.item t.1 0) + 1))

/-- `fishers_noncentral_hypergeometric.py` 185-196 `sf` -/
noncomputable def sf (k : ℤ) (nc : Num) (ntotal ngood nsample : ℤ) : M Num := do
  hypergeometric.validate ntotal ngood nsample
  sfOf k (← supportPmf nc ntotal ngood nsample)

/-- `fishers_noncentral_hypergeometric.py` 200-243 `mode` -/
noncomputable def mode (nc : Num) (ntotal ngood nsample : ℤ) : M ℤ := do
  hypergeometric.validate ntotal ngood nsample
  let A := nc - 1
  let B := ofInt (ngood + nsample - ntotal) - ofInt (ngood + nsample + 2) * nc
  let C := ofInt ((ngood + 1) * (nsample + 1)) * nc
  let m ← (-(2 * C)) /. (B - (← mp.sqrt (mp.ipow B 2 - 4 * A * C)))
  py.int (mp.floor m)

/-- Lines 269-270, given the result of `support_pmf`. -/
noncomputable def meanOf (t : List ℤ × List Num) : M Num := do
  let n := t.2.length
  let l ← (List.range n).mapM fun k : ℕ => do
    return ofInt (← py.item t.1 k) * (← py.item t.2 k)
  return mp.fsum l

/-- `fishers_noncentral_hypergeometric.py` 247-270 `mean` -/
noncomputable def mean (nc : Num) (ntotal ngood nsample : ℤ) : M Num := do
  hypergeometric.validate ntotal ngood nsample
  meanOf (← supportPmf nc ntotal ngood nsample)

/-! ### The cache

`_support_pmf` is decorated with `functools.lru_cache()` (line 35).  It returns a `range`, which cannot be
changed, and a list, which can: the cache keeps a reference to the list and hands the same reference to
every caller.  The lists live in a heap and are named by their index in it.  `lru_cache` drops old
entries; here any entry may be dropped at any time. -/

/-- The arguments of `_support_pmf`: `nc`, `ntotal`, `ngood`, `nsample` and the working precision. -/
structure Key where
  nc : Num
  ntotal : ℤ
  ngood : ℤ
  nsample : ℤ
  prec : ℕ

/-- The state of the module: the lists created so far and, for every cached key, the support and the
reference to the list. -/
structure State where
  heap : List (List Num)
  cache : Key → Option (List ℤ × ℕ)

/-- The state when the module is imported. -/
def State.init : State := ⟨[], fun _ => none⟩

/-- `support_pmf` with the cache (lines 35-37, 117-120): the support and a reference to the list. -/
noncomputable def supportPmfS (key : Key) (s : State) : M ((List ℤ × ℕ) × State) := do
  hypergeometric.validate key.ntotal key.ngood key.nsample
  match s.cache key with
  | some r => return (r, s)
  | none =>
    let (sup, values) ← supportPmf0 key.nc key.ntotal key.ngood key.nsample
    let r := (sup, s.heap.length)
    return (r, ⟨s.heap ++ [values], fun key' => if key' = key then some r else s.cache key'⟩)

/-- What a function of this module computes when it calls `support_pmf` in the state `s`. -/
noncomputable def viaCache {α : Type} (f : List ℤ × List Num → M α) (key : Key) (s : State) : M α := do
  hypergeometric.validate key.ntotal key.ngood key.nsample
  let ((sup, r), s') ← supportPmfS key s
  f (sup, s'.heap.getD r [])

/-- `pmf` with the cache. -/
noncomputable def pmfS (k : ℤ) : Key → State → M Num := viaCache (pmfOf k)
/-- `cdf` with the cache. -/
noncomputable def cdfS (k : ℤ) : Key → State → M Num := viaCache (cdfOf k)
/-- `sf` with the cache. -/
noncomputable def sfS (k : ℤ) : Key → State → M Num := viaCache (sfOf k)
/-- `mean` with the cache. -/
noncomputable def meanS : Key → State → M Num := viaCache meanOf

/-- What can happen between two calls: a call of `support_pmf` (directly or through another function), the
loss of a cache entry, and a caller changing an element of a list it was given. -/
inductive Event
  | call (key : Key)
  | evict (key : Key)
  | write (ref i : ℕ) (v : Num)

/-- The effect of one event; a call that raises leaves the state as it is. -/
noncomputable def step (s : State) : Event → State
  | .call key => match supportPmfS key s with
    | .ok (_, s') => s'
    | .error _ => s
  | .evict key => ⟨s.heap, fun key' => if key' = key then none else s.cache key'⟩
  | .write ref i v => ⟨s.heap.modify ref (fun l => l.set i v), s.cache⟩

/-- The state after a history. -/
noncomputable def run (es : List Event) : State := es.foldl step .init

end Mpsci.fishers_noncentral_hypergeometric
