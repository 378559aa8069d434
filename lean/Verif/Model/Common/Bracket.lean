import Verif.Base.Mp
import Verif.Base.Loop

/-!
# The bracket searches of `mpsci/distributions/_common.py`

`func` is the monotone function to be inverted, as seen from Python.
-/

namespace Mpsci.common

open Classical Num

/-- The `nbisect` bisection steps of `_find_bracket`, `_common.py` lines 184–196. -/
noncomputable def bisectSteps (func : Num → M Num) (p sign : Num) : ℕ → Num → Num → M (Num × Num)
  | 0, x0, x1 => return (x0, x1)
  | n + 1, x0, x1 => do
    let mid ← (x0 + x1) /. 2
    let pmid ← func mid
    if pmid =. p then return (mid, mid)
    if mp.sign (p - pmid) =. sign then
      bisectSteps func p sign n mid x1
    else
      bisectSteps func p sign n x0 mid

/-- The choice of a finite starting bracket in `_find_bracket`, `_common.py` lines 152–179. -/
noncomputable def startBracket (fuel : ℕ) (func : Num → M Num) (p sign a b : Num) :
    M (Num × Num) := do
  if a =. ninf ∧ b =. pinf then
    let (x0, x1) ← loop (fun s : Num × Num => do return ¬ (mp.sign (p - (← func s.1)) =. sign))
      (fun s => return (2 * s.1, s.1)) fuel (-1, 1)
    let x1 ← loop (fun x : Num => do return mp.sign (p - (← func x)) =. sign)
      (fun x => return 2 * x) fuel x1
    return (x0, x1)
  else if a =. ninf then
    -- state (delta, x0, x1)
    let (_, x0, x1) ← loop
      (fun s : Num × Num × Num => do return ¬ (mp.sign (p - (← func s.2.1)) =. sign))
      (fun s => return (2 * s.1, b - 2 * s.1, s.2.1)) fuel (1, b - 1, b)
    return (x0, x1)
  else if b =. pinf then
    let (_, x0, x1) ← loop
      (fun s : Num × Num × Num => do return mp.sign (p - (← func s.2.2)) =. sign)
      (fun s => return (2 * s.1, s.2.2, a + 2 * s.1)) fuel (1, a, a + 1)
    return (x0, x1)
  else
    return (a, b)

/-- `_find_bracket(func, p, a, b, nbisect=None)`, `_common.py` lines 129–196. -/
noncomputable def findBracket (fuel : ℕ) (func : Num → M Num) (p a b : Num)
    (nbisect : Option ℕ := none) : M (Num × Num) := do
  let pa ← func a
  if p =. pa then return (a, a)
  let pb ← func b
  if p =. pb then return (b, b)
  let sign := mp.sign (pb - pa)
  let (x0, x1) ← startBracket fuel func p sign a b
  bisectSteps func p sign (nbisect.getD 8) x0 x1

/-- The test `not_high_enough` of the two expansion searches, lines 214–219 and 247–252. -/
noncomputable def notHighEnough (func : Num → M Num) (p : Num) (direction : ℤ) (x : Num) :
    M Prop := do
  let y ← func x
  return if direction = 1 then y < p else y > p

/-- The test `not_low_enough` of the two expansion searches, lines 214–219 and 247–252. -/
noncomputable def notLowEnough (func : Num → M Num) (p : Num) (direction : ℤ) (x : Num) :
    M Prop := do
  let y ← func x
  return if direction = 1 then y > p else y < p

/-- `_find_bracket_by_expansion_neginf_inf(func, p, direction)`, `_common.py` lines 199–233. -/
noncomputable def expandNeginfInf (fuel : ℕ) (func : Num → M Num) (p : Num) (direction : ℤ) :
    M (Num × Num) := do
  if direction ≠ -1 ∧ direction ≠ 1 then throw .valueError
  let xHigh ← (if (← notHighEnough func p direction 0) then
      loop (notHighEnough func p direction) (fun x => return x * fin 1.5) fuel 1
    else return 0)
  let xLow ← (if (← notLowEnough func p direction 0) then
      loop (notLowEnough func p direction) (fun x => return x * fin 1.5) fuel (-1)
    else return 0)
  return (xLow, xHigh)

/-- `_find_bracket_by_expansion_0_inf(func, p, direction)`, `_common.py` lines 236–261. -/
noncomputable def expand0Inf (fuel : ℕ) (func : Num → M Num) (p : Num) (direction : ℤ) :
    M (Num × Num) := do
  if direction ≠ -1 ∧ direction ≠ 1 then throw .valueError
  let xHigh ← loop (notHighEnough func p direction) (fun x => return x * fin 1.5) fuel 1
  let xLow ← loop (fun x => do
      if x > 0 then notLowEnough func p direction x else return False)
    (fun x => return x * fin 0.5) fuel 1
  return (xLow, xHigh)

end Mpsci.common
