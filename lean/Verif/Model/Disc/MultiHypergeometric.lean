import Verif.Base.Discrete
import Verif.Base.PyNum
import Verif.Model.Fun.Log

/-! Model of `mpsci/distributions/multivariate_hypergeometric.py` (integer colours, samples and points).
Generators are modelled by the list of the values they yield. -/

namespace Mpsci.multivariate_hypergeometric

open Classical Num

/-- `multivariate_hypergeometric.py` 17-21 `_validate_params` -/
def validate (colors : List ℤ) (nsample : ℤ) : M Unit :=
  if ∃ c ∈ colors, c < 0 then .error .valueError
  else if nsample > colors.sum then .error .valueError
  else .ok ()

/-- `multivariate_hypergeometric.py` 60-69 `_support_gen`; `colors[0]` raises IndexError for an empty
list. -/
def supportGen : List ℤ → ℤ → M (List (List ℤ))
  | [], _ => .error .indexError
  | [_], nsample => .ok [[nsample]]
  | c0 :: c' :: rest, nsample => do
    let c1 := (c' :: rest).sum
    let first := max (nsample - c1) 0
    let last := min c0 nsample
    let l ← (py.range first (last + 1)).mapM fun k => do
      return (← supportGen (c' :: rest) (nsample - k)).map fun t => k :: t
    return l.flatten

/-- `multivariate_hypergeometric.py` 24-57 `support` -/
def support (colors : List ℤ) (nsample : ℤ) : M (List (List ℤ)) := do
  validate colors nsample
  supportGen colors nsample

/-- The loop at lines 90-91. -/
noncomputable def lognumer (s : Num) : List (ℤ × ℤ) → M Num
  | [] => return s
  | (color, k) :: l => do lognumer (s + (← fun_.logbinomial (ofInt color) (ofInt k))) l

/-- `multivariate_hypergeometric.py` 73-93 `logpmf` -/
noncomputable def logpmf (point colors : List ℤ) (nsample : ℤ) : M Num := do
  validate colors nsample
  let total := colors.sum
  let logdenom ← fun_.logbinomial (ofInt total) (ofInt nsample)
  return (← lognumer 0 (colors.zip point)) - logdenom

/-- `multivariate_hypergeometric.py` 96-109 `pmf` -/
noncomputable def pmf (point colors : List ℤ) (nsample : ℤ) : M Num := do
  return mp.exp (← logpmf point colors nsample)

/-- `multivariate_hypergeometric.py` 113-143 `mean` -/
noncomputable def mean (colors : List ℤ) (nsample : ℤ) : M (List Num) := do
  validate colors nsample
  let s := ofInt colors.sum
  if nsample = colors.sum then return colors.map fun k => 1 * ofInt k
  colors.mapM fun k => do return ofInt nsample * (← ofInt k /. s)

/-- `multivariate_hypergeometric.py` 147-211 `cov`; the loops fill the matrix entry by entry, here it is
given by its rows. -/
noncomputable def cov (colors : List ℤ) (nsample : ℤ) : M (List (List Num)) := do
  validate colors nsample
  let n := colors.length
  let s := ofInt colors.sum
  if nsample = colors.sum then return List.replicate n (List.replicate n 0)
  let u ← colors.mapM fun k => ofInt k /. s
  let f ← (ofInt nsample * (s - ofInt nsample)) /. (s - 1)
  return (List.range n).map fun i => (List.range n).map fun j =>
    if i = j then f * u.getD i nan * (1 - u.getD i nan) else -f * u.getD i nan * u.getD j nan

/-- `multivariate_hypergeometric.py` 215-242 `entropy` -/
noncomputable def entropy (colors : List ℤ) (nsample : ℤ) : M Num := do
  validate colors nsample
  let terms ← (← supportGen colors nsample).mapM fun x => do
    let logp ← logpmf x colors nsample
    return mp.exp logp * logp
  return -mp.fsum terms

end Mpsci.multivariate_hypergeometric
