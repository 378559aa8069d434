import Verif.Model.Common

/-! Model of `mpsci/distributions/uniform.py`. -/

namespace Mpsci.uniform

open Classical Num common

/-- `uniform.py` 19-22. -/
noncomputable def validate (a b : Num) : M (Num × Num) :=
  if a ≥ b then .error .valueError else .ok (a, b)

/-- `uniform.py` 25-34. -/
noncomputable def pdf (x : Num) (a : Num := 0) (b : Num := 1) : M Num := do
  let (a, b) ← validate a b
  if x < a ∨ x > b then
    return 0
  else
    1 /. (b - a)

/-- `uniform.py` 37-46. -/
noncomputable def logpdf (x : Num) (a : Num := 0) (b : Num := 1) : M Num := do
  let (a, b) ← validate a b
  if x < a ∨ x > b then
    return ninf
  else
    return -(← mp.log (b - a))

/-- `uniform.py` 49-61. -/
noncomputable def cdf (x : Num) (a : Num := 0) (b : Num := 1) : M Num := do
  let (a, b) ← validate a b
  if x < a then
    return 0
  else if x > b then
    return 1
  else
    (x - a) /. (b - a)

/-- `uniform.py` 64-76. -/
noncomputable def sf (x : Num) (a : Num := 0) (b : Num := 1) : M Num := do
  let (a, b) ← validate a b
  if x < a then
    return 1
  else if x > b then
    return 0
  else
    (b - x) /. (b - a)

/-- `uniform.py` 79-90. -/
noncomputable def invcdf (p : Num) (a : Num := 0) (b : Num := 1) : M Num := do
  let p ← validateP p
  let (a, b) ← validate a b
  return a + p * (b - a)

/-- `uniform.py` 93-101. -/
noncomputable def invsf (p : Num) (a : Num := 0) (b : Num := 1) : M Num := do
  let p ← validateP p
  let (a, b) ← validate a b
  return b - p * (b - a)

/-- `uniform.py` 104-110. -/
noncomputable def support (a : Num := 0) (b : Num := 1) : M (Num × Num) := do
  let (a, b) ← validate a b
  return (a, b)

/-- `uniform.py` 113-119. -/
noncomputable def mean (a : Num := 0) (b : Num := 1) : M Num := do
  let (a, b) ← validate a b
  (a + b) /. 2

/-- `uniform.py` 122-128. -/
noncomputable def median (a : Num := 0) (b : Num := 1) : M Num := do
  let (a, b) ← validate a b
  (a + b) /. 2

/-- `uniform.py` 131-137. -/
noncomputable def var (a : Num := 0) (b : Num := 1) : M Num := do
  let (a, b) ← validate a b
  mp.ipow (b - a) 2 /. 12

/-- `uniform.py` 140-146. -/
noncomputable def entropy (a : Num := 0) (b : Num := 1) : M Num := do
  let (a, b) ← validate a b
  mp.log (b - a)

/-- `uniform.py` 149-160. -/
noncomputable def noncentralMoment (n : ℤ) (a : Num := 0) (b : Num := 1) : M Num := do
  let n ← validateMomentN n
  let (a, b) ← validate a b
  if n = 0 then
    return 1
  else
    mp.fsum ((List.range (n + 1)).map fun i => mp.ipow a i * mp.ipow b (n - i)) /. fin (n + 1)

end Mpsci.uniform
