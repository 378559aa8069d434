import Verif.Base.Discrete
import Verif.Model.Common
import Verif.Model.Fun.Log

/-! Model of `mpsci/distributions/binomial.py` (`k` and `n` Python integers). -/

namespace Mpsci.binomial

open Classical Num

/-- `binomial.py` 31-35 `_validate_np` for an integer `n`. -/
noncomputable def validateNp (n : ℤ) (p : Num) : M (ℤ × Num) := do
  let p ← common.validateP p
  if n < 0 then throw .valueError
  return (n, p)

/-- `binomial.py` 38-57 `support` -/
noncomputable def support (n : ℤ) (p : Num) : M (List ℤ) := do
  let (n, _) ← validateNp n p
  return py.range 0 (n + 1)

/-- `binomial.py` 60-68 `pmf` -/
noncomputable def pmf (k n : ℤ) (p : Num) : M Num := do
  let (n, p) ← validateNp n p
  return (← mp.binomial n k) * (← mp.power p (ofInt k)) * (← mp.power (1 - p) (ofInt (n - k)))

/-- `binomial.py` 71-79 `logpmf` -/
noncomputable def logpmf (k n : ℤ) (p : Num) : M Num := do
  let (n, p) ← validateNp n p
  return (← fun_.logbinomial (ofInt n) (ofInt k)) + ofInt k * (← mp.log p) +
    mp.fsum [ofInt n, -ofInt k] * (← mp.log1p (-p))

/-- `binomial.py` 82-107 `cdf`; `method` is `'incbeta'` or `'sumpmf'`. -/
noncomputable def cdf (k n : ℤ) (p : Num) (method : String := "incbeta") : M Num := do
  if method ≠ "sumpmf" ∧ method ≠ "incbeta" then throw .valueError
  if method = "incbeta" then
    let (n, p) ← validateNp n p
    if k = n then return 1
    mp.betaincReg (ofInt (n - k)) (ofInt (k + 1)) 0 (1 - p)
  else
    let (n, p) ← validateNp n p
    let l ← (py.range 0 (k + 1)).mapM fun t => do return mp.exp (← logpmf t n p)
    return mp.fsum l

/-- `binomial.py` 110-133 `sf` -/
noncomputable def sf (k n : ℤ) (p : Num) (method : String := "incbeta") : M Num := do
  if method ≠ "sumpmf" ∧ method ≠ "incbeta" then throw .valueError
  if method = "incbeta" then
    let (n, p) ← validateNp n p
    mp.betaincReg (ofInt (n - k)) (ofInt (k + 1)) (1 - p) 1
  else
    let (n, p) ← validateNp n p
    let l ← (py.range (k + 1) (n + 1)).mapM fun t => do return mp.exp (← logpmf t n p)
    return mp.fsum l

/-- `binomial.py` 136-142 `mean` -/
noncomputable def mean (n : ℤ) (p : Num) : M Num := do
  let (n, p) ← validateNp n p
  return ofInt n * p

/-- `binomial.py` 145-158 `mode` -/
noncomputable def mode (n : ℤ) (p : Num) : M ℤ := do
  let (n, p) ← validateNp n p
  if n = 0 ∨ p =. 0 then return 0
  if p =. 1 then return n
  py.int (mp.ceil ((ofInt n + 1) * p) - 1)

/-- `binomial.py` 161-167 `var` -/
noncomputable def var (n : ℤ) (p : Num) : M Num := do
  let (n, p) ← validateNp n p
  return ofInt n * p * (1 - p)

end Mpsci.binomial
