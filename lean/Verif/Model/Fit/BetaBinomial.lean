import Verif.Model.Disc.BetaBinomial
import Verif.Model.Fit.Counts

/-! Model of `nll` and `mle` of `mpsci/distributions/betabinomial.py` (`n` a Python integer). -/

namespace Mpsci.betabinomial

open Classical Num common

/-- `betabinomial.py` 189-203 `nll` -/
noncomputable def nll (x : List Num) (n : ℤ) (a b : Num) (counts : Option (List Num) := none) : M Num := do
  let (n, a, b) ← validateParams n a b
  let x ← validateXBounds x (some 0) (some (ofInt n)) false false
  if ¬ ∀ t ∈ x, mp.isint t then throw .valueError
  let counts ← validateCounts x counts true
  nllCounts (logpmf · n a b) x counts

/-- `mp.fsum([count*g(t) for t, count in zip(x, counts)])` -/
noncomputable def sumCounts (g : Num → M Num) (x : List Num) (counts : Option (List Num)) : M Num := do
  return mp.fsum (← (x.zip (counts.getD [])).mapM fun tc => do return tc.2 * (← g tc.1))

/-- `betabinomial.py` 327-330 `first_order_eqn` in `a` -/
noncomputable def eqnA (x : List Num) (counts : Option (List Num)) (n : ℤ) (b a : Num) : M Num := do
  let s := -(← mp.digamma a) + (← mp.digamma (a + b)) - (← mp.digamma (ofInt n + a + b))
  sumCounts (fun t => do return (← mp.digamma (t + a)) + s) x counts

/-- `betabinomial.py` 338-341 `first_order_eqn` in `b` -/
noncomputable def eqnB (x : List Num) (counts : Option (List Num)) (n : ℤ) (a b : Num) : M Num := do
  let s := -(← mp.digamma b) + (← mp.digamma (a + b)) - (← mp.digamma (ofInt n + a + b))
  sumCounts (fun t => do return (← mp.digamma (ofInt n - t + b)) + s) x counts

/-- `betabinomial.py` 306-318 `first_order_eqns` -/
noncomputable def eqns (x : List Num) (counts : Option (List Num)) (n : ℤ) (a b : Num) : M (Num × Num) := do
  let psia ← mp.digamma a
  let psib ← mp.digamma b
  let psiab ← mp.digamma (a + b)
  let psinab ← mp.digamma (ofInt n + a + b)
  let s1 := psiab - psinab
  let sa := s1 - psia
  let sb := s1 - psib
  let eqa ← sumCounts (fun t => do return (← mp.digamma (t + a)) + sa) x counts
  let eqb ← sumCounts (fun t => do return (← mp.digamma (ofInt n - t + b)) + sb) x counts
  return (eqa, eqb)

/-- `betabinomial.py` 288-348; `findroot` and `findroot2` are `mp.findroot(f, x0)` for one and for two unknowns. -/
noncomputable def mleFit (findroot : (Num → M Num) → Num → M Num) (findroot2 : (Num → Num → M (Num × Num)) → Num × Num → M (Num × Num))
    (x : List Num) (counts : Option (List Num)) (n : ℤ) (a b : Param) : M (ℤ × Num × Num) :=
  match a, b with
  | .fixed a, .fixed b => validateParams n a b
  | .fixed a, b => do
    let (n, a, _) ← validateParams n a 1
    let est ← findroot (eqnB x counts n a) b.start
    return (n, a, est)
  | a, .fixed b => do
    let (n, _, b) ← validateParams n 1 b
    let est ← findroot (eqnA x counts n b) a.start
    return (n, est, b)
  | a, b => do
    let (n, _, _) ← validateParams n 1 1
    let est ← findroot2 (eqns x counts n) (a.start, b.start)
    return (n, est.1, est.2)

/-- `betabinomial.py` 207-348 `mle` -/
noncomputable def mle (findroot : (Num → M Num) → Num → M Num) (findroot2 : (Num → Num → M (Num × Num)) → Num × Num → M (Num × Num))
    (x : List Num) (counts : Option (List Num)) (n : Option ℤ) (a b : Param) : M (ℤ × Num × Num) := do
  match n with
  | none => throw .valueError
  | some n =>
    if n < 1 then throw .valueError
    let x ← validateXBounds x (some 0) (some (ofInt n)) false false
    if ¬ ∀ t ∈ x, mp.isint t then throw .valueError
    let counts ← validateCounts x counts true
    mleFit findroot findroot2 x counts n a b

end Mpsci.betabinomial
