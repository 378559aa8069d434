import Mathlib.Analysis.SpecialFunctions.Pow.Real

/-!
# Numbers and exceptions

The value domain of the model.  An `mpmath.mpf` is a finite real number, `+inf`,
`-inf` or `nan`.  Rounding is not modelled: finite numbers are exact reals.
Functions that may raise return `M α = Except Err α`.
-/

namespace Mpsci

open Classical

/-- The ways a modelled call can fail to return a real number.
`complexResult` stands for "mpmath leaves the real line" (log or fractional power of a
negative number): Python would carry on with an `mpc`.
`diverges` stands for "the fuel of a modelled `while` loop ran out".
`notModelled` marks arguments of an mpmath function on which this model says nothing. -/
inductive Err
  | valueError | zeroDivision | typeError | runtimeError | indexError | nameError | attributeError | complexResult | diverges | notModelled
  deriving DecidableEq, Repr

abbrev M (α : Type) := Except Err α

@[simp] theorem ok_bind {α β : Type} (a : α) (f : α → M β) :
    ((Except.ok a : M α) >>= f) = f a := rfl
@[simp] theorem error_bind {α β : Type} (e : Err) (f : α → M β) :
    ((Except.error e : M α) >>= f) = Except.error e := rfl
@[simp] theorem pure_eq_ok {α : Type} (a : α) : (pure a : M α) = Except.ok a := rfl
@[simp] theorem throw_eq_error {α : Type} (e : Err) : (throw e : M α) = Except.error e := rfl
@[simp] theorem ok_map {α β : Type} (a : α) (f : α → β) :
    (f <$> (Except.ok a : M α)) = Except.ok (f a) := rfl
@[simp] theorem error_map {α β : Type} (e : Err) (f : α → β) :
    (f <$> (Except.error e : M α)) = Except.error e := rfl

/-- An mpmath real number (`mp.mpf`). -/
inductive Num
  | fin (x : ℝ)
  | pinf
  | ninf
  | nan

namespace Num

noncomputable instance : OfNat Num 0 := ⟨fin 0⟩
noncomputable instance : OfNat Num 1 := ⟨fin 1⟩
noncomputable instance (n : ℕ) [n.AtLeastTwo] : OfNat Num n := ⟨fin (OfNat.ofNat n)⟩
@[simp] theorem zero_def : (0 : Num) = fin 0 := rfl
@[simp] theorem one_def : (1 : Num) = fin 1 := rfl
@[simp] theorem ofNat_def (n : ℕ) [n.AtLeastTwo] :
    (OfNat.ofNat n : Num) = fin (OfNat.ofNat n) := rfl

@[simp] theorem fin_inj {x y : ℝ} : fin x = fin y ↔ x = y :=
  ⟨fun h => by injection h, fun h => by rw [h]⟩

/-- Unary minus. -/
noncomputable def neg : Num → Num
  | fin x => fin (-x)
  | pinf => ninf
  | ninf => pinf
  | nan => nan
noncomputable instance : Neg Num := ⟨neg⟩
@[simp] theorem neg_fin (x : ℝ) : -(fin x) = fin (-x) := rfl
@[simp] theorem neg_pinf : -pinf = ninf := rfl
@[simp] theorem neg_ninf : -ninf = pinf := rfl
@[simp] theorem neg_nan : -nan = nan := rfl

/-- Addition: `inf + (-inf)` is nan. -/
noncomputable def add : Num → Num → Num
  | fin x, fin y => fin (x + y)
  | fin _, pinf => pinf
  | fin _, ninf => ninf
  | pinf, fin _ => pinf
  | ninf, fin _ => ninf
  | pinf, pinf => pinf
  | ninf, ninf => ninf
  | _, _ => nan
noncomputable instance : Add Num := ⟨add⟩
@[simp] theorem fin_add (x y : ℝ) : fin x + fin y = fin (x + y) := rfl
@[simp] theorem fin_add_pinf (x : ℝ) : fin x + pinf = pinf := rfl
@[simp] theorem fin_add_ninf (x : ℝ) : fin x + ninf = ninf := rfl
@[simp] theorem pinf_add_fin (x : ℝ) : pinf + fin x = pinf := rfl
@[simp] theorem ninf_add_fin (x : ℝ) : ninf + fin x = ninf := rfl
@[simp] theorem pinf_add_pinf : pinf + pinf = pinf := rfl
@[simp] theorem ninf_add_ninf : ninf + ninf = ninf := rfl
@[simp] theorem pinf_add_ninf : pinf + ninf = nan := rfl
@[simp] theorem ninf_add_pinf : ninf + pinf = nan := rfl
@[simp] theorem nan_add (x : Num) : nan + x = nan := by cases x <;> rfl
@[simp] theorem add_nan (x : Num) : x + nan = nan := by cases x <;> rfl

noncomputable instance : Sub Num := ⟨fun x y => x + -y⟩
theorem sub_def (x y : Num) : x - y = x + -y := rfl
@[simp] theorem fin_sub (x y : ℝ) : fin x - fin y = fin (x - y) := by
  simp [sub_def, sub_eq_add_neg]
@[simp] theorem fin_sub_pinf (x : ℝ) : fin x - pinf = ninf := rfl
@[simp] theorem fin_sub_ninf (x : ℝ) : fin x - ninf = pinf := rfl
@[simp] theorem pinf_sub_fin (x : ℝ) : pinf - fin x = pinf := rfl
@[simp] theorem ninf_sub_fin (x : ℝ) : ninf - fin x = ninf := rfl
@[simp] theorem pinf_sub_pinf : pinf - pinf = nan := rfl
@[simp] theorem ninf_sub_ninf : ninf - ninf = nan := rfl
@[simp] theorem pinf_sub_ninf : pinf - ninf = pinf := rfl
@[simp] theorem ninf_sub_pinf : ninf - pinf = ninf := rfl
@[simp] theorem nan_sub (x : Num) : nan - x = nan := by cases x <;> rfl
@[simp] theorem sub_nan (x : Num) : x - nan = nan := by cases x <;> rfl

/-- `x * (±inf)` for a finite `x`: nan when `x = 0`. -/
noncomputable def scaleInf (x : ℝ) (pos neg : Num) : Num :=
  if 0 < x then pos else if x < 0 then neg else nan

/-- Multiplication: `0 * inf` is nan. -/
noncomputable def mul : Num → Num → Num
  | fin x, fin y => fin (x * y)
  | fin x, pinf => scaleInf x pinf ninf
  | fin x, ninf => scaleInf x ninf pinf
  | pinf, fin x => scaleInf x pinf ninf
  | ninf, fin x => scaleInf x ninf pinf
  | pinf, pinf => pinf
  | pinf, ninf => ninf
  | ninf, pinf => ninf
  | ninf, ninf => pinf
  | _, _ => nan
noncomputable instance : Mul Num := ⟨mul⟩
@[simp] theorem fin_mul (x y : ℝ) : fin x * fin y = fin (x * y) := rfl
@[simp] theorem fin_mul_pinf (x : ℝ) : fin x * pinf = scaleInf x pinf ninf := rfl
@[simp] theorem fin_mul_ninf (x : ℝ) : fin x * ninf = scaleInf x ninf pinf := rfl
@[simp] theorem pinf_mul_fin (x : ℝ) : pinf * fin x = scaleInf x pinf ninf := rfl
@[simp] theorem ninf_mul_fin (x : ℝ) : ninf * fin x = scaleInf x ninf pinf := rfl
@[simp] theorem pinf_mul_pinf : pinf * pinf = pinf := rfl
@[simp] theorem pinf_mul_ninf : pinf * ninf = ninf := rfl
@[simp] theorem ninf_mul_pinf : ninf * pinf = ninf := rfl
@[simp] theorem ninf_mul_ninf : ninf * ninf = pinf := rfl
@[simp] theorem nan_mul (x : Num) : nan * x = nan := by cases x <;> rfl
@[simp] theorem mul_nan (x : Num) : x * nan = nan := by cases x <;> rfl
theorem scaleInf_pos {x : ℝ} (h : 0 < x) (a b : Num) : scaleInf x a b = a := by
  simp [scaleInf, h]
theorem scaleInf_neg {x : ℝ} (h : x < 0) (a b : Num) : scaleInf x a b = b := by
  simp [scaleInf, h, not_lt.2 h.le]
@[simp] theorem scaleInf_zero (a b : Num) : scaleInf 0 a b = nan := by
  simp [scaleInf]

/-- Division; division by zero raises `ZeroDivisionError` (mpmath does so for every
numerator). -/
noncomputable def div : Num → Num → M Num
  | fin x, fin y => if y = 0 then .error .zeroDivision else .ok (fin (x / y))
  | pinf, fin y => if y = 0 then .error .zeroDivision else .ok (scaleInf y pinf ninf)
  | ninf, fin y => if y = 0 then .error .zeroDivision else .ok (scaleInf y ninf pinf)
  | nan, fin y => if y = 0 then .error .zeroDivision else .ok nan
  | fin _, pinf => .ok (fin 0)
  | fin _, ninf => .ok (fin 0)
  | _, _ => .ok nan

@[inherit_doc] infixl:70 " /. " => Num.div

theorem fin_div (x : ℝ) {y : ℝ} (h : y ≠ 0) : fin x /. fin y = .ok (fin (x / y)) := by
  simp [div, h]
@[simp] theorem fin_div_ofNat (x : ℝ) (n : ℕ) [n.AtLeastTwo] :
    (fin x /. fin (ofNat(n) : ℝ)) = .ok (fin (x / ofNat(n))) := fin_div _ (by simp)
@[simp] theorem fin_div_zero (x : ℝ) : fin x /. fin 0 = .error .zeroDivision := by
  simp [div]
@[simp] theorem fin_div_pinf (x : ℝ) : fin x /. pinf = .ok (fin 0) := rfl
@[simp] theorem fin_div_ninf (x : ℝ) : fin x /. ninf = .ok (fin 0) := rfl
theorem pinf_div_pos {y : ℝ} (h : 0 < y) : pinf /. fin y = .ok pinf := by
  simp [div, h.ne', scaleInf_pos h]
theorem ninf_div_pos {y : ℝ} (h : 0 < y) : ninf /. fin y = .ok ninf := by
  simp [div, h.ne', scaleInf_pos h]

/-- Python `<` on mpf values; false if either side is nan. -/
def lt : Num → Num → Prop
  | fin x, fin y => x < y
  | fin _, pinf => True
  | ninf, fin _ => True
  | ninf, pinf => True
  | _, _ => False
instance : LT Num := ⟨lt⟩

/-- Python `<=` on mpf values; false if either side is nan. -/
def le : Num → Num → Prop
  | fin x, fin y => x ≤ y
  | fin _, pinf => True
  | ninf, fin _ => True
  | ninf, pinf => True
  | pinf, pinf => True
  | ninf, ninf => True
  | _, _ => False
instance : LE Num := ⟨le⟩

/-- Python `==` on mpf values; false if either side is nan. -/
def eq : Num → Num → Prop
  | fin x, fin y => x = y
  | pinf, pinf => True
  | ninf, ninf => True
  | _, _ => False

@[inherit_doc] infix:50 " =. " => Num.eq

@[simp] theorem fin_lt (x y : ℝ) : (fin x < fin y) ↔ x < y := Iff.rfl
@[simp] theorem fin_le (x y : ℝ) : (fin x ≤ fin y) ↔ x ≤ y := Iff.rfl
@[simp] theorem fin_eq (x y : ℝ) : (fin x =. fin y) ↔ x = y := Iff.rfl
@[simp] theorem fin_lt_pinf (x : ℝ) : fin x < pinf ↔ True := Iff.rfl
@[simp] theorem fin_lt_ninf (x : ℝ) : fin x < ninf ↔ False := Iff.rfl
@[simp] theorem fin_lt_nan (x : ℝ) : fin x < nan ↔ False := Iff.rfl
@[simp] theorem pinf_lt (x : Num) : pinf < x ↔ False := by cases x <;> rfl
@[simp] theorem ninf_lt_fin (x : ℝ) : ninf < fin x ↔ True := Iff.rfl
@[simp] theorem ninf_lt_pinf : ninf < pinf ↔ True := Iff.rfl
@[simp] theorem ninf_lt_ninf : ninf < ninf ↔ False := Iff.rfl
@[simp] theorem ninf_lt_nan : ninf < nan ↔ False := Iff.rfl
@[simp] theorem nan_lt (x : Num) : nan < x ↔ False := by cases x <;> rfl
@[simp] theorem fin_le_pinf (x : ℝ) : fin x ≤ pinf ↔ True := Iff.rfl
@[simp] theorem fin_le_ninf (x : ℝ) : fin x ≤ ninf ↔ False := Iff.rfl
@[simp] theorem fin_le_nan (x : ℝ) : fin x ≤ nan ↔ False := Iff.rfl
@[simp] theorem pinf_le_fin (x : ℝ) : pinf ≤ fin x ↔ False := Iff.rfl
@[simp] theorem pinf_le_ninf : pinf ≤ ninf ↔ False := Iff.rfl
@[simp] theorem pinf_le_nan : pinf ≤ nan ↔ False := Iff.rfl
@[simp] theorem pinf_le_pinf : pinf ≤ pinf ↔ True := Iff.rfl
@[simp] theorem ninf_le_fin (x : ℝ) : ninf ≤ fin x ↔ True := Iff.rfl
@[simp] theorem ninf_le_pinf : ninf ≤ pinf ↔ True := Iff.rfl
@[simp] theorem ninf_le_ninf : ninf ≤ ninf ↔ True := Iff.rfl
@[simp] theorem ninf_le_nan : ninf ≤ nan ↔ False := Iff.rfl
@[simp] theorem nan_le (x : Num) : nan ≤ x ↔ False := by cases x <;> rfl
@[simp] theorem fin_eq_pinf (x : ℝ) : (fin x =. pinf) ↔ False := Iff.rfl
@[simp] theorem fin_eq_ninf (x : ℝ) : (fin x =. ninf) ↔ False := Iff.rfl
@[simp] theorem pinf_eq_fin (x : ℝ) : (pinf =. fin x) ↔ False := Iff.rfl
@[simp] theorem ninf_eq_fin (x : ℝ) : (ninf =. fin x) ↔ False := Iff.rfl
@[simp] theorem pinf_eq_pinf : (pinf =. pinf) ↔ True := Iff.rfl
@[simp] theorem ninf_eq_ninf : (ninf =. ninf) ↔ True := Iff.rfl
@[simp] theorem pinf_eq_ninf : (pinf =. ninf) ↔ False := Iff.rfl
@[simp] theorem ninf_eq_pinf : (ninf =. pinf) ↔ False := Iff.rfl
@[simp] theorem nan_eq (x : Num) : (nan =. x) ↔ False := by cases x <;> rfl
@[simp] theorem eq_nan (x : Num) : (x =. nan) ↔ False := by cases x <;> rfl
@[simp] theorem gt_iff (x y : Num) : x > y ↔ y < x := Iff.rfl
@[simp] theorem ge_iff (x y : Num) : x ≥ y ↔ y ≤ x := Iff.rfl

/-- `abs(x)`. -/
noncomputable def abs : Num → Num
  | fin x => fin |x|
  | pinf => pinf
  | ninf => pinf
  | nan => nan
@[simp] theorem abs_fin (x : ℝ) : abs (fin x) = fin |x| := rfl

end Num

end Mpsci
