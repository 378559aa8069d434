import Verif.Model.Disc.Poisson
import Verif.Model.Disc.Binomial
import Verif.Model.Stats.Basic
import Verif.Model.Fit.Param
import Verif.Base.PyNum
import Verif.Base.Digamma

/-! Model of `_validate_counts` of `mpsci/distributions/_common.py`, and of the functions `nll` and `mle` of `poisson.py`
and `binomial.py`. -/

namespace Mpsci

open Classical Num

/-- `mp.isint` -/
def mp.isint (t : Num) : Prop := ∃ k : ℤ, t = ofInt k

/-- A number for which `mp.isint` holds, as an integer. -/
noncomputable def intOf : Num → ℤ
  | fin x => ⌊x⌋
  | _ => 0

namespace common

/-- `_common.py` 115-126 `_validate_counts`.  `any([..])` computes the whole list first, so that `int(t)` is called for
every count. -/
noncomputable def validateCounts (x : List Num) (counts : Option (List Num)) (expandNone : Bool := true) :
    M (Option (List Num)) := do
  match counts with
  | none => return if expandNone then some (List.replicate x.length 1) else none
  | some c =>
    if c.length ≠ x.length then throw .valueError
    let bad ← c.mapM fun t => do return decide (¬ t =. ofInt (← py.int t) ∨ t < 0)
    if bad.any id then throw .valueError
    return some c

/-- `-mp.fsum([count*logpmf(t, ..) for t, count in zip(x, counts)])` (`poisson.py` 161-162, `binomial.py` 184-185,
`logseries.py`, `negative_binomial.py`, `betabinomial.py`); the entries of `x` are integers. -/
noncomputable def nllCounts (logpmf : ℤ → M Num) (x : List Num) (counts : Option (List Num)) : M Num := do
  return -mp.fsum (← (x.zip (counts.getD [])).mapM fun tc => do return tc.2 * (← logpmf (intOf tc.1)))

end common

namespace poisson

open common

/-- `poisson.py` 149-162 `nll` -/
noncomputable def nll (x : List Num) (lam : Num) (counts : Option (List Num) := none) : M Num := do
  let lam ← validateLam lam
  let x ← validateXBounds x (some 0) none false false
  if ¬ ∀ t ∈ x, mp.isint t ∧ t ≥ 0 then throw .valueError
  let counts ← validateCounts x counts true
  nllCounts (logpmf · lam) x counts

/-- `poisson.py` 165-176 `mle` -/
noncomputable def mle (x : List Num) (counts : Option (List Num) := none) : M Num := do
  let counts ← validateCounts x counts false
  stats.mean x counts

end poisson

namespace binomial

open common

/-- `binomial.py` 31-35 `_validate_np` for a number `n`. -/
noncomputable def validateNpNum (n p : Num) : M (Num × Num) := do
  let p ← common.validateP p
  if n < 0 then throw .valueError
  if ¬ ofInt (← py.int n) =. n then throw .valueError
  return (n, p)

/-- `binomial.py` 170-185 `nll` -/
noncomputable def nll (x : List Num) (n : ℤ) (p : Num) (counts : Option (List Num) := none) : M Num := do
  let (n, p) ← validateNp n p
  let x ← validateXBounds x (some 0) (some (ofInt n)) false false
  if ¬ ∀ t ∈ x, mp.isint t then throw .valueError
  let counts ← validateCounts x counts true
  nllCounts (logpmf · n p) x counts

/-- `binomial.py` 18-28 `_wvar` with `ddof=0`. -/
noncomputable def wvar (x : List Num) (weights : Option (List Num)) : M Num := do
  match weights with
  | none => stats.var x
  | some w =>
    let mu ← stats.mean x (some w)
    stats.mean (x.map fun t => mp.ipow (t - mu) 2) (some w)

/-- `binomial.py` 188-191 `_p_threshold` -/
noncomputable def pThreshold (k : List Num) : M Num := do
  let kmax ← py.max k
  let d ← stats.mean (← k.mapM fun ki => do return (← mp.digamma (kmax + 1)) - (← mp.digamma (kmax - ki + 1)))
  return -mp.expm1 (-d)

/-- `binomial.py` 252-256 `mle_n_eqn` with `p1 = m/n` -/
noncomputable def eqnFree (x : List Num) (counts : Option (List Num)) (m n : Num) : M Num := do
  let p1 ← m /. n
  return -(← stats.mean (← x.mapM fun xi => mp.digamma (n - xi + 1)) counts) + (← mp.digamma (n + 1)) + (← mp.log1p (-p1))

/-- `binomial.py` 293-296 `mle_n_eqn` with `p` fixed -/
noncomputable def eqnFixed (x : List Num) (counts : Option (List Num)) (p n : Num) : M Num := do
  return -(← stats.mean (← x.mapM fun xi => mp.digamma (n - xi + 1)) counts) + (← mp.digamma (n + 1)) + (← mp.log1p (-p))

/-- `binomial.py` 230-244, `n` fixed -/
noncomputable def mleFixedN (x : List Num) (counts : Option (List Num)) (xmax n : Num) (p : Param) : M (ℤ × Num) := do
  if xmax > n then throw .valueError
  match p with
  | .fixed p =>
    let (n, p) ← validateNpNum n p
    return (intOf n, p)
  | _ =>
    let (n, _) ← validateNpNum n (fin (1 / 2))
    let m ← stats.mean x counts
    let phat ← m /. n
    return (← py.int n, phat)

/-- `binomial.py` 246-283, neither fixed -/
noncomputable def mleFree (findroot : (Num → M Num) → Num → M Num) (x : List Num) (counts : Option (List Num)) (xmax : Num)
    (n p : Param) : M (ℤ × Num) := do
  match n with
  | .initial v => if v < xmax then throw .valueError
  | _ => pure ()
  let m ← stats.mean x counts
  let n0 ← match n with
    | .initial v => pure v
    | _ => do
      let v ← wvar x counts
      if m - v > 0 then py.max [← mp.ipow m 2 /. (m - v), xmax] else pure xmax
  let nhat ← findroot (eqnFree x counts m) n0
  if nhat < xmax then mleFixedN x counts xmax xmax p
  else
    let phat ← m /. nhat
    let nint ← py.int nhat
    if ofInt nint =. nhat then return (nint, phat)
    let nhat0 ← py.int (mp.floor nhat)
    let nhat1 ← py.int (mp.ceil nhat)
    let phat0 ← m /. ofInt nhat0
    let phat1 ← m /. ofInt nhat1
    let nll0 ← nll x nhat0 phat0 counts
    let nll1 ← nll x nhat1 phat1 counts
    if nll0 ≤ nll1 then return (nhat0, phat0)
    return (nhat1, phat1)

/-- `try: r, except ValueError: other` -/
def tryExcept (r other : M Num) : M Num :=
  match r with
  | .error .valueError => other
  | r => r

/-- `binomial.py` 305-317: from the real solution to an integer -/
noncomputable def roundN (x : List Num) (counts : Option (List Num)) (xmax p nhat : Num) : M (ℤ × Num) := do
  if nhat < xmax then return (← py.int xmax, p)
  let nint ← py.int nhat
  if ofInt nint =. nhat then return (nint, p)
  let nhat0 ← py.int (mp.floor nhat)
  let nhat1 := nhat0 + 1
  let nll0 ← nll x nhat0 p counts
  let nll1 ← nll x nhat1 p counts
  if nll0 ≤ nll1 then return (nhat0, p)
  return (nhat1, p)

/-- `binomial.py` 284-317, `p` fixed. -/
noncomputable def mleFixedP (findroot : (Num → M Num) → Num → M Num) (x : List Num) (counts : Option (List Num)) (xmax : Num)
    (n : Param) (p : Num) : M (ℤ × Num) := do
  let (_, p) ← validateNp 1 p
  let pt ← pThreshold x
  if p ≥ pt then return (← py.int xmax, p)
  let m ← stats.mean x counts
  let n0 := match n with
    | .initial v => v
    | _ => xmax + 1
  let nhat ← tryExcept (findroot (eqnFixed x counts p) n0) (do findroot (eqnFixed x counts p) (← m /. p))
  roundN x counts xmax p nhat

/-- `binomial.py` 194-317 `mle`; `findroot` is `mp.findroot(f, n0)`.  The first returned value is an integer: where the code
returns a fixed `n` as it was given, the model returns it as an integer. -/
noncomputable def mle (findroot : (Num → M Num) → Num → M Num) (x : List Num) (counts : Option (List Num)) (n p : Param) :
    M (ℤ × Num) := do
  let ints ← x.mapM fun xi => do return decide (ofInt (← py.int xi) =. xi)
  if ¬ ints.all id then throw .valueError
  let x ← validateXBounds x (some 0) (some pinf) false false
  let xmax ← py.max x
  let counts ← validateCounts x counts false
  match n with
  | .fixed n => mleFixedN x counts xmax n p
  | n =>
    match p with
    | .fixed p => mleFixedP findroot x counts xmax n p
    | p => mleFree findroot x counts xmax n p

end binomial

end Mpsci
