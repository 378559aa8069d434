import Verif.Base.Special
import Verif.Base.Float

/-!
# `mpsci/fun/_inv_reg_inc_beta.py`

The bisection stops when the midpoint is *rounded* to an end of the bracket, so here (and only
here) rounding is part of the model: `rnd` rounds a real number to a representable one.
-/

namespace Mpsci.fn

open Classical Num

/-- Rounding of a number; the special values are unaffected. -/
noncomputable def round (rnd : ℝ → ℝ) : Num → Num
  | fin x => fin (rnd x)
  | y => y
@[simp] theorem round_fin (rnd : ℝ → ℝ) (x : ℝ) : round rnd (fin x) = fin (rnd x) := rfl

/-- The `while True` loop of `mp_bisect`, lines 15–26, with fuel.  `(x0 + x1)/2` is a rounded
sum followed by a rounded quotient. -/
noncomputable def bisectLoop (rnd : ℝ → ℝ) (func : Num → M Num) : ℕ → Num → Num → Num → M Num
  | 0, _, _, _ => .error .diverges
  | n + 1, x0, x1, y0 => do
    let q ← round rnd (x0 + x1) /. 2
    let xmid := round rnd q
    let ymid ← func xmid
    if ymid =. 0 ∨ (xmid =. x0 ∨ xmid =. x1) then return xmid
    if mp.sign ymid =. mp.sign y0 then
      bisectLoop rnd func n xmid x1 ymid
    else
      bisectLoop rnd func n x0 xmid y0

/-- `mp_bisect(func, x0, x1)`, `_inv_reg_inc_beta.py` lines 4–26. -/
noncomputable def mpBisect (rnd : ℝ → ℝ) (fuel : ℕ) (func : Num → M Num) (x0 x1 : Num) :
    M Num := do
  let y0 ← func x0
  if y0 =. 0 then return x0
  let y1 ← func x1
  if y1 =. 0 then return x1
  if (y0 > 0 ∧ y1 > 0) ∨ (y0 < 0 ∧ y1 < 0) then throw .valueError
  bisectLoop rnd func fuel x0 x1 y0

/-- `try: ... except Exception: raise RuntimeError`, `_inv_reg_inc_beta.py` lines 113–116 and 118–122.  A computation that
does not end is not an exception, and nothing is said about one that is outside the model. -/
def asRuntimeError {α : Type} : M α → M α
  | .ok v => .ok v
  | .error .diverges => .error .diverges
  | .error .notModelled => .error .notModelled
  | .error _ => .error .runtimeError

/-- The function whose root is sought, `_inv_reg_inc_beta.py` lines 102–110. -/
noncomputable def betaincTarget (a b y : Num) (complement : Bool) : Num → M Num :=
  if complement then fun t => do return (← mp.betaincReg a b t 1) - y
  else fun t => do return (← mp.betaincReg a b 0 t) - y

/-- `betaincinv(a, b, y, method=('bisect', [xa, xb]), complement)`,
`_inv_reg_inc_beta.py` lines 29–127, for the bisection methods (`method='bisect'` is the bracket
`[0, 1]`), which are the ones the distributions call.  `betaincinv` below is the function with all its methods. -/
noncomputable def betaincinvBisect (rnd : ℝ → ℝ) (fuel : ℕ) (a b y xa xb : Num)
    (complement : Bool) : M Num := do
  if y < 0 ∨ y > 1 then return nan
  if y =. 0 then return (if complement then 1 else 0)
  if y =. 1 then return (if complement then 0 else 1)
  asRuntimeError (mpBisect rnd fuel (betaincTarget a b y complement) xa xb)

/-- An entry of a tuple given as `method`. -/
inductive MethodArg
  | str (s : String)
  | num (x : Num)
  | list (l : List Num)

/-- The argument `method`: a name or a tuple. -/
inductive Method
  | name (s : String)
  | tuple (l : List MethodArg)

/-- What `method` asks for. -/
inductive Plan
  | bisect (bracket : List Num)
  | findroot (x0 : Num)

/-- `_inv_reg_inc_beta.py` lines 90–100: `method[0]` and `method[1]` raise IndexError when missing, a bracket that is a
number and an initial guess that is a list raise TypeError.  Not modelled: a string as bracket or guess. -/
noncomputable def methodPlan : Method → M Plan
  | .name s =>
    if s = "bisect" then .ok (.bisect [0, 1])
    else if s = "findroot" then .ok (.findroot (fin (1 / 2)))
    else .error .valueError
  | .tuple [] => .error .indexError
  | .tuple (.str s :: rest) =>
    if s = "bisect" then
      match rest with
      | [] => .error .indexError
      | .list l :: _ => .ok (.bisect l)
      | .num _ :: _ => .error .typeError
      | .str _ :: _ => .error .notModelled
    else if s = "findroot" then
      match rest with
      | [] => .error .indexError
      | .num x0 :: _ => .ok (.findroot x0)
      | .list _ :: _ => .error .typeError
      | .str _ :: _ => .error .notModelled
    else .error .valueError
  | .tuple (_ :: _) => .error .valueError

/-- `betaincinv(a, b, y, method, complement)`, `_inv_reg_inc_beta.py` lines 29–127.  `findroot` is `mp.findroot(func, x0)`;
`none` stands for a complex result.  `bracket[0]` and `bracket[1]` are evaluated inside the `try` (line 114), so a
short bracket is a RuntimeError. -/
noncomputable def betaincinv (findroot : (Num → M Num) → Num → M (Option Num)) (rnd : ℝ → ℝ) (fuel : ℕ) (a b y : Num)
    (method : Method := .name "findroot") (complement : Bool := false) : M Num := do
  if y < 0 ∨ y > 1 then return nan
  if y =. 0 then return (if complement then 1 else 0)
  if y =. 1 then return (if complement then 0 else 1)
  match ← methodPlan method with
  | .bisect bracket =>
    asRuntimeError (match bracket with
      | xa :: xb :: _ => mpBisect rnd fuel (betaincTarget a b y complement) xa xb
      | _ => .error .indexError)
  | .findroot x0 =>
    match ← asRuntimeError (findroot (betaincTarget a b y complement) x0) with
    | none => throw .runtimeError
    | some r => if r < 0 then throw .runtimeError else return r

end Mpsci.fn
