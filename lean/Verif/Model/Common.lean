import Verif.Base.Mp

/-! Model of `mpsci/distributions/_common.py` (validators). -/

namespace Mpsci.common

open Classical Num

/-- `_common.py` 23-28 `_validate_loc_scale`. -/
noncomputable def validateLocScale (loc scale : Num) : M (Num × Num) :=
  if scale ≤ 0 then .error .valueError else .ok (loc, scale)

/-- `_common.py` 31-34 `_validate_p`. -/
noncomputable def validateP (p : Num) : M Num :=
  if p < 0 ∨ p > 1 then .error .valueError else .ok p

/-- `_common.py` 46-53 `_validate_moment_n`, for an `n` that is a Python integer. -/
def validateMomentN (n : ℤ) : M ℕ :=
  if n < 0 then .error .valueError else .ok n.toNat

/-- `_common.py` 76-80: some value violates the lower bound. -/
def badLow (x : List Num) : Option Num → Bool → Prop
  | none, _ => False
  | some low, true => ∃ t ∈ x, t ≤ low
  | some low, false => ∃ t ∈ x, t < low

/-- `_common.py` 88-92: some value violates the upper bound. -/
def badHigh (x : List Num) : Option Num → Bool → Prop
  | none, _ => False
  | some high, true => ∃ t ∈ x, t ≥ high
  | some high, false => ∃ t ∈ x, t > high

/-- `_common.py` 65-98 `_validate_x_bounds`; `None` bounds are `none`. -/
noncomputable def validateXBounds (x : List Num) (low high : Option Num)
    (strictLow strictHigh : Bool) : M (List Num) :=
  if badLow x low strictLow then .error .valueError
  else if badHigh x high strictHigh then .error .valueError
  else .ok x

end Mpsci.common
