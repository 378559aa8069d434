import Verif.Model.Common
import Verif.Base.Const
import Verif.Base.Digamma
import Verif.Model.Fun.Powm1
import Verif.Base.Special

/-! Model of `mpsci/distributions/kumaraswamy.py` (`nll` and `mle` are in `Verif/Model/Fit/Positive.lean`). -/

namespace Mpsci.kumaraswamy

open Classical Num common

/-- `kumaraswamy.py` 34-38. -/
noncomputable def validateAB (a b : Num) : M (Num × Num) :=
  if a ≤ 0 ∨ b ≤ 0 then .error .valueError else .ok (a, b)

/-- `kumaraswamy.py` 41-55. -/
noncomputable def pdf (x a b : Num) : M Num := do
  let (a, b) ← validateAB a b
  if x < 0 ∨ 1 < x then
    return 0
  else if x =. 0 ∧ a < 1 then
    return pinf
  else if x =. 1 ∧ b < 1 then
    return pinf
  else
    return a * b * (← mp.power x (a - 1)) * (← mp.power (-(← mp.powm1 x a)) (b - 1))

/-- `kumaraswamy.py` 58-68. -/
noncomputable def logpdf (x a b : Num) : M Num := do
  let (a, b) ← validateAB a b
  if x < 0 ∨ 1 < x then
    return ninf
  else
    return (← mp.log a) + (← mp.log b) + (a - 1) * (← mp.log x)
      + (b - 1) * (← mp.log1p (-(← mp.power x a)))

/-- `kumaraswamy.py` 71-82. -/
noncomputable def cdf (x a b : Num) : M Num := do
  let (a, b) ← validateAB a b
  if x < 0 then
    return 0
  else if 1 < x then
    return 1
  else
    return -(← mp.powm1 (-(← mp.powm1 x a)) b)

/-- `kumaraswamy.py` 85-96. -/
noncomputable def sf (x a b : Num) : M Num := do
  let (a, b) ← validateAB a b
  if x < 0 then
    return 1
  else if 1 < x then
    return 0
  else
    mp.power (-(← mp.powm1 x a)) b

/-- `kumaraswamy.py` 99-110. -/
noncomputable def invcdf (p a b : Num) : M Num := do
  let (a, b) ← validateAB a b
  let p ← validateP p
  if p =. 0 then
    return 0
  else if p =. 1 then
    return 1
  else
    fun_.invPowm1 (-(← fun_.invPowm1 (-p) b)) a

/-- `kumaraswamy.py` 113-124. -/
noncomputable def invsf (p a b : Num) : M Num := do
  let (a, b) ← validateAB a b
  let p ← validateP p
  if p =. 0 then
    return 1
  else if p =. 1 then
    return 0
  else
    fun_.invPowm1 (-(← mp.power p (← 1 /. b))) a

/-- `kumaraswamy.py` 127-131. -/
noncomputable def support (_a _b : Num) : M (Num × Num) := .ok (0, 1)

/-- `kumaraswamy.py` 134-140. -/
noncomputable def mean (a b : Num) : M Num := do
  let (a, b) ← validateAB a b
  return b * (← mp.beta (1 + (← 1 /. a)) b)

/-- `kumaraswamy.py` 143-149. -/
noncomputable def median (a b : Num) : M Num := do
  let (a, b) ← validateAB a b
  fun_.invPowm1 (-(← mp.power (fin (1 / 2)) (← 1 /. b))) a

/-- `kumaraswamy.py` 152-173. -/
noncomputable def mode (a b : Num) : M Num := do
  let (a, b) ← validateAB a b
  if a < 1 ∨ (a =. 1 ∧ 1 ≤ b) then
    return 0
  else if (1 ≤ a ∧ b < 1) ∨ (1 < a ∧ b =. 1) then
    return 1
  else
    mp.power (← (a - 1) /. (a * b - 1)) (← 1 /. a)

/-- `kumaraswamy.py` 176-182. -/
noncomputable def var (a b : Num) : M Num := do
  let (a, b) ← validateAB a b
  return b * (← mp.beta (1 + (← 2 /. a)) b) - mp.ipow (← mean a b) 2

/-- `kumaraswamy.py` 185-196. -/
noncomputable def noncentralMoment (n : ℤ) (a b : Num) : M Num := do
  let n ← validateMomentN n
  let (a, b) ← validateAB a b
  if n = 0 then
    return 1
  else
    return b * (← mp.beta (1 + (← fin n /. a)) b)

/-- `kumaraswamy.py` 199-208. -/
noncomputable def skewness (a b : Num) : M Num := do
  let (a, b) ← validateAB a b
  let m ← mean a b
  let v ← var a b
  let mu3p ← noncentralMoment 3 a b
  (mu3p - m * (3 * v + mp.ipow m 2)) /. (← mp.power v (fin (3 / 2)))

/-- `kumaraswamy.py` 211-212. -/
noncomputable def harmonicNumber (n : Num) : M Num := do
  return (← mp.digamma (n + 1)) + mp.euler

/-- `kumaraswamy.py` 215-222. -/
noncomputable def entropy (a b : Num) : M Num := do
  let (a, b) ← validateAB a b
  return (1 - (← 1 /. b)) + (1 - (← 1 /. a)) * (← harmonicNumber b) - (← mp.log a) - (← mp.log b)

end Mpsci.kumaraswamy
