import Verif.Base.Discrete
import Verif.Model.Common
import Verif.Model.Fun.Logbeta

/-! Model of `mpsci/distributions/hypergeometric.py` and `negative_hypergeometric.py` (all arguments Python
integers). -/

namespace Mpsci

open Classical Num

namespace hypergeometric

/-- `hypergeometric.py` 14-23 `_validate` -/
def validate (ntotal ngood nsample : ℤ) : M Unit :=
  if ntotal < 0 ∨ ngood < 0 ∨ nsample < 0 then .error .valueError
  else if ngood > ntotal then .error .valueError
  else if nsample > ntotal then .error .valueError
  else .ok ()

/-- `hypergeometric.py` 26-37 `pmf` -/
noncomputable def pmf (k ntotal ngood nsample : ℤ) : M Num := do
  validate ntotal ngood nsample
  let nbad := ntotal - ngood
  let numer := ofInt (ntotal + 1) * (← mp.betaZ (ntotal - nsample + 1) (nsample + 1))
  let denom := ofInt ((ngood + 1) * (nbad + 1)) * (← mp.betaZ (k + 1) (ngood - k + 1)) *
    (← mp.betaZ (nsample - k + 1) (nbad - nsample + k + 1))
  numer /. denom

/-- `hypergeometric.py` 40-58 `logpmf` -/
noncomputable def logpmf (k ntotal ngood nsample : ℤ) : M Num := do
  validate ntotal ngood nsample
  let nbad := ntotal - ngood
  let t1 ← mp.log (ofInt (ntotal + 1))
  let t2 ← fun_.logbeta (ofInt (ntotal - nsample + 1)) (ofInt (nsample + 1))
  let t3 ← mp.log (ofInt (ngood + 1))
  let t4 ← mp.log (ofInt (nbad + 1))
  let t5 ← fun_.logbeta (ofInt (k + 1)) (ofInt (ngood - k + 1))
  let t6 ← fun_.logbeta (ofInt (nsample - k + 1)) (ofInt (nbad - nsample + k + 1))
  return mp.fsum [t1, t2, -t3, -t4, -t5, -t6]

/-- `hypergeometric.py` 70-82 `sf` -/
noncomputable def sf (k ntotal ngood nsample : ℤ) : M Num := do
  validate ntotal ngood nsample
  let h ← mp.hyp3f2One 1 ((k + 1 - ngood : ℤ)) ((k + 1 - nsample : ℤ)) ((k + 2 : ℤ))
    ((ntotal + k + 2 - ngood - nsample : ℤ))
  let num := (← mp.binomial nsample (k + 1)) * (← mp.binomial (ntotal - nsample) (ngood - k - 1))
  let den ← mp.binomial ntotal ngood
  return (← num /. den) * h

/-- `hypergeometric.py` 61-67 `cdf` -/
noncomputable def cdf (k ntotal ngood nsample : ℤ) : M Num := do
  validate ntotal ngood nsample
  return 1 - (← sf k ntotal ngood nsample)

/-- `hypergeometric.py` 85-107 `support` -/
def support (ntotal ngood nsample : ℤ) : M (List ℤ) := do
  validate ntotal ngood nsample
  let nbad := ntotal - ngood
  return py.range (max 0 (nsample - nbad)) (min nsample ngood + 1)

/-- `hypergeometric.py` 110-138 `support_pmf` -/
noncomputable def supportPmf (ntotal ngood nsample : ℤ) : M (List ℤ × List Num) := do
  let sup ← support ntotal ngood nsample
  let p ← sup.mapM fun k => pmf k ntotal ngood nsample
  return (sup, p)

/-- `hypergeometric.py` 141-147 `mean` -/
noncomputable def mean (ntotal ngood nsample : ℤ) : M Num := do
  validate ntotal ngood nsample
  (ofInt nsample * ofInt ngood) /. ofInt ntotal

/-- `hypergeometric.py` 150-160 `mode` -/
noncomputable def mode (ntotal ngood nsample : ℤ) : M ℤ := do
  validate ntotal ngood nsample
  let r ← ((ofInt nsample + 1) * (ofInt ngood + 1)) /. (ofInt ntotal + 2)
  return (← py.int (mp.ceil r)) - 1

/-- `hypergeometric.py` 163-174 `var` -/
noncomputable def var (ntotal ngood nsample : ℤ) : M Num := do
  validate ntotal ngood nsample
  let nbad := ofInt ntotal - ofInt ngood
  return ofInt nsample * (← ofInt ngood /. ofInt ntotal) * (← nbad /. ofInt ntotal) *
    (← (ofInt ntotal - ofInt nsample) /. (ofInt ntotal - 1))

end hypergeometric

end Mpsci
