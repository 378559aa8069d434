import Verif.Model.Disc.Hypergeometric
import Verif.Model.Fun.Log

/-! Model of `mpsci/distributions/negative_hypergeometric.py` (all arguments Python integers). -/

namespace Mpsci.negative_hypergeometric

open Classical Num

/-- `negative_hypergeometric.py` 20-26 `_validate` -/
def validate (ntotal ngood untilnbad : ℤ) : M Unit :=
  if ntotal < 0 ∨ ngood < 0 ∨ untilnbad < 0 then .error .valueError
  else if ngood > ntotal then .error .valueError
  else if ntotal - ngood < untilnbad then .error .valueError
  else .ok ()

/-- `negative_hypergeometric.py` 30-42 `pmf` -/
noncomputable def pmf (k ntotal ngood untilnbad : ℤ) : M Num := do
  validate ntotal ngood untilnbad
  if k < 0 ∨ k > ngood then return 0
  let b1 ← mp.binomial (k + untilnbad - 1) k
  let b2 ← mp.binomial (ntotal - untilnbad - k) (ngood - k)
  let b3 ← mp.binomial ntotal ngood
  return b1 * (← b2 /. b3)

/-- `negative_hypergeometric.py` 46-58 `logpmf` -/
noncomputable def logpmf (k ntotal ngood untilnbad : ℤ) : M Num := do
  validate ntotal ngood untilnbad
  if k < 0 ∨ k > ngood then return ninf
  let t1 ← fun_.logbinomial (ofInt (k + untilnbad - 1)) (ofInt k)
  let t2 ← fun_.logbinomial (ofInt (ntotal - untilnbad - k)) (ofInt (ngood - k))
  let t3 ← fun_.logbinomial (ofInt ntotal) (ofInt ngood)
  return mp.fsum [t1, t2, -t3]

/-- `negative_hypergeometric.py` 61-71 `cdf` -/
noncomputable def cdf (k ntotal ngood untilnbad : ℤ) : M Num := do
  validate ntotal ngood untilnbad
  if k < 0 then return 0
  if k ≥ ngood then return 1
  hypergeometric.sf (untilnbad - 1) ntotal (ntotal - ngood) (k + untilnbad)

/-- `negative_hypergeometric.py` 74-84 `sf` -/
noncomputable def sf (k ntotal ngood untilnbad : ℤ) : M Num := do
  validate ntotal ngood untilnbad
  if k < 0 then return 1
  if k ≥ ngood then return 0
  hypergeometric.cdf (untilnbad - 1) ntotal (ntotal - ngood) (k + untilnbad)

/-- `negative_hypergeometric.py` 88-94 `mean` -/
noncomputable def mean (ntotal ngood untilnbad : ℤ) : M Num := do
  validate ntotal ngood untilnbad
  (ofInt untilnbad * ofInt ngood) /. ofInt (ntotal - ngood + 1)

/-- `negative_hypergeometric.py` 98-118 `mode`.  Line 117 returns the number `ngood` as an mpf; here it
is the equal integer. -/
noncomputable def mode (ntotal ngood untilnbad : ℤ) : M ℤ := do
  validate ntotal ngood untilnbad
  if untilnbad = 0 ∨ ngood = 0 then return 0
  if ntotal > untilnbad * (ngood + 1) then return 0
  let t := ngood + untilnbad - 1
  if t > (ntotal - t) * ngood then return ngood
  py.int (mp.ceil (← ofInt (untilnbad * (ngood + 1) - ntotal) /. ofInt (ntotal - ngood - 1)))

/-- `negative_hypergeometric.py` 122-132 `var` -/
noncomputable def var (ntotal ngood untilnbad : ℤ) : M Num := do
  validate ntotal ngood untilnbad
  let nbad := ntotal - ngood
  let r := ofInt untilnbad
  (← (r * ofInt (ntotal + 1) * ofInt ngood * (1 - (← r /. ofInt (nbad + 1)))) /. ofInt (nbad + 1))
    /. ofInt (nbad + 2)

/-- `negative_hypergeometric.py` 135-151 `support` -/
def support (ntotal ngood untilnbad : ℤ) : M (List ℤ) := do
  validate ntotal ngood untilnbad
  let m := if untilnbad = 0 then 1 else ngood + 1
  return py.range 0 m

/-- `negative_hypergeometric.py` 154-177 `support_pmf` -/
noncomputable def supportPmf (ntotal ngood untilnbad : ℤ) : M (List ℤ × List Num) := do
  validate ntotal ngood untilnbad
  let m := if untilnbad = 0 then 1 else ngood + 1
  let sup := py.range 0 m
  let p ← sup.mapM fun k => pmf k ntotal ngood untilnbad
  return (sup, p)

end Mpsci.negative_hypergeometric
