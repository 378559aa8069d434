import Verif.Model.Common
import Verif.Model.Common.Bracket
import Verif.Model.Fun.Powm1
import Verif.Model.Fun.Logbeta
import Verif.Model.Fun.InvRegIncBeta
import Verif.Base.GammaInc

/-! Model of `mpsci/distributions/beta.py`. -/

namespace Mpsci.beta

open Classical Num common

/-- `beta.py` 22-26. -/
noncomputable def validateAB (a b : Num) : M (Num × Num) :=
  if a ≤ 0 ∨ b ≤ 0 then .error .valueError else .ok (a, b)

/-- `beta.py` 30-43. -/
noncomputable def pdf (x a b : Num) : M Num := do
  let (a, b) ← validateAB a b
  if x < 0 ∨ x > 1 then return 0
  if x =. 0 ∧ a < 1 then return pinf
  if x =. 1 ∧ b < 1 then return pinf
  ((← mp.power x (a - 1)) * (← mp.power (1 - x) (b - 1))) /. (← mp.beta a b)

/-- `beta.py` 47-56. -/
noncomputable def logpdf (x a b : Num) : M Num := do
  let (a, b) ← validateAB a b
  if x < 0 ∨ x > 1 then return ninf
  return (← fun_.xlogy (a - 1) x) + (← fun_.xlog1py (b - 1) (-x)) - (← fun_.logbeta a b)

/-- `beta.py` 60-69. -/
noncomputable def cdf (x a b : Num) : M Num := do
  let (a, b) ← validateAB a b
  if x < 0 then return 0
  if x > 1 then return 1
  mp.betaincReg a b 0 x

/-- `beta.py` 73-82. -/
noncomputable def sf (x a b : Num) : M Num := do
  let (a, b) ← validateAB a b
  if x < 0 then return 1
  if x > 1 then return 0
  mp.betaincReg a b x 1

/-- `beta.py` 86-104. -/
noncomputable def intervalProb (x1 x2 a b : Num) : M Num := do
  let (a, b) ← validateAB a b
  if x1 > x2 then throw .valueError
  mp.betaincReg a b x1 x2

/-- `beta.py` 108-119.  `rnd` is the rounding that stops the bisection; the bracket search is exact. -/
noncomputable def invcdf (rnd : ℝ → ℝ) (fuel : ℕ) (p a b : Num) : M Num := do
  let (a, b) ← validateAB a b
  let p ← validateP p
  let (x0, x1) ← findBracket fuel (fun x => cdf x a b) p 0 1
  if x0 =. x1 then return x0
  fn.betaincinvBisect rnd fuel a b p x0 x1 false

/-- `beta.py` 123-135. -/
noncomputable def invsf (rnd : ℝ → ℝ) (fuel : ℕ) (p a b : Num) : M Num := do
  let (a, b) ← validateAB a b
  let p ← validateP p
  let (x0, x1) ← findBracket fuel (fun x => sf x a b) p 0 1
  if x0 =. x1 then return x0
  fn.betaincinvBisect rnd fuel a b p x0 x1 true

/-- `beta.py` 139-144. -/
noncomputable def support (a b : Num) : M (Num × Num) := do
  let _ ← validateAB a b
  return (0, 1)

/-- `beta.py` 148-153. -/
noncomputable def mean (a b : Num) : M Num := do
  let (a, b) ← validateAB a b
  a /. (a + b)

/-- `beta.py` 157-176. -/
noncomputable def mode (a b : Num) : M Num := do
  let (a, b) ← validateAB a b
  if a < 1 then return 0
  if a =. 1 then
    if b < 1 then return 1
    return 0
  if b ≤ 1 then return 1
  (a - 1) /. (a + b - 2)

/-- `beta.py` 180-186. -/
noncomputable def var (a b : Num) : M Num := do
  let (a, b) ← validateAB a b
  let apb := a + b
  (a * b) /. (mp.ipow apb 2 * (apb + 1))

/-- `beta.py` 190-196. -/
noncomputable def skewness (a b : Num) : M Num := do
  let (a, b) ← validateAB a b
  let apb := a + b
  (2 * (b - a) * (← mp.sqrt (apb + 1))) /. ((apb + 2) * (← mp.sqrt (a * b)))

/-- `beta.py` 200-207. -/
noncomputable def kurtosis (a b : Num) : M Num := do
  let (a, b) ← validateAB a b
  let apb := a + b
  (6 * (mp.ipow (a - b) 2 * (apb + 1) - a * b * (apb + 2))) /. (a * b * (apb + 2) * (apb + 3))

/-- The product of `beta.py` 219-222 after `n` rounds. -/
noncomputable def momentLoop (a b : Num) : ℕ → M Num
  | 0 => .ok 1
  | k + 1 => do return (← momentLoop a b k) * (← (a + fin k) /. (a + b + fin k))

/-- `beta.py` 211-222. -/
noncomputable def noncentralMoment (n : ℤ) (a b : Num) : M Num := do
  let n ← validateMomentN n
  let (a, b) ← validateAB a b
  momentLoop a b n

/-- `beta.py` 226-234. -/
noncomputable def entropy (a b : Num) : M Num := do
  let (a, b) ← validateAB a b
  return (← fun_.logbeta a b) - (a - 1) * (← mp.psi 0 a) - (b - 1) * (← mp.psi 0 b) + (a + b - 2) * (← mp.psi 0 (a + b))

end Mpsci.beta
