import Verif.Base.Num
import Mathlib.Analysis.SpecialFunctions.Trigonometric.Arctan
import Mathlib.Analysis.SpecialFunctions.Sqrt
import Mathlib.Analysis.SpecialFunctions.Gamma.Basic

/-!
# mpmath elementary functions

The elementary functions of the `mp` context on `Num`, with mpmath's conventions at the
infinities and at singular points.  `expm1`, `log1p`, `powm1`, `fsum` differ from the naive
formulas only by rounding, which is not modelled.
-/

namespace Mpsci.mp

open Classical Num

/-- `mp.exp` -/
noncomputable def exp : Num → Num
  | fin x => fin (Real.exp x)
  | pinf => pinf
  | ninf => fin 0
  | nan => nan
@[simp] theorem exp_fin (x : ℝ) : exp (fin x) = fin (Real.exp x) := rfl
@[simp] theorem exp_pinf : exp pinf = pinf := rfl
@[simp] theorem exp_ninf : exp ninf = fin 0 := rfl
@[simp] theorem exp_nan : exp nan = nan := rfl

/-- `mp.expm1` -/
noncomputable def expm1 (x : Num) : Num := exp x - 1
@[simp] theorem expm1_fin (x : ℝ) : expm1 (fin x) = fin (Real.exp x - 1) := by simp [expm1]
@[simp] theorem expm1_pinf : expm1 pinf = pinf := by simp [expm1]
@[simp] theorem expm1_ninf : expm1 ninf = fin (-1) := by simp [expm1]
@[simp] theorem expm1_nan : expm1 nan = nan := by simp [expm1]

/-- `mp.log`: `log 0 = -inf`; a negative argument gives a complex number. -/
noncomputable def log : Num → M Num
  | fin x => if 0 < x then .ok (fin (Real.log x))
             else if x = 0 then .ok ninf else .error .complexResult
  | pinf => .ok pinf
  | ninf => .error .complexResult
  | nan => .ok nan
theorem log_pos {x : ℝ} (h : 0 < x) : log (fin x) = .ok (fin (Real.log x)) := by
  simp [log, h]
@[simp] theorem log_zero : log (fin 0) = .ok ninf := by simp [log]
theorem log_neg {x : ℝ} (h : x < 0) : log (fin x) = .error .complexResult := by
  simp [log, h.ne, not_lt.2 h.le]
@[simp] theorem log_pinf : log pinf = .ok pinf := rfl
@[simp] theorem log_nan : log nan = .ok nan := rfl

/-- `mp.log1p` -/
noncomputable def log1p (x : Num) : M Num := log (1 + x)
theorem log1p_pos {x : ℝ} (h : -1 < x) : log1p (fin x) = .ok (fin (Real.log (1 + x))) := by
  have : 0 < 1 + x := by linarith
  simp [log1p, log_pos this]
@[simp] theorem log1p_neg_one : log1p (fin (-1)) = .ok ninf := by simp [log1p]
theorem log1p_neg {x : ℝ} (h : x < -1) : log1p (fin x) = .error .complexResult := by
  have : 1 + x < 0 := by linarith
  simp [log1p, log_neg this]
@[simp] theorem log1p_pinf : log1p pinf = .ok pinf := by simp [log1p]

/-- `mp.sqrt`: a negative argument gives a complex number. -/
noncomputable def sqrt : Num → M Num
  | fin x => if 0 ≤ x then .ok (fin (Real.sqrt x)) else .error .complexResult
  | pinf => .ok pinf
  | ninf => .error .complexResult
  | nan => .ok nan
theorem sqrt_nonneg {x : ℝ} (h : 0 ≤ x) : sqrt (fin x) = .ok (fin (Real.sqrt x)) := by
  simp [sqrt, h]
theorem sqrt_neg {x : ℝ} (h : x < 0) : sqrt (fin x) = .error .complexResult := by
  simp [sqrt, not_le.2 h]

/-- `mp.power(x, y)` and `x**y`, following `libmp.mpf_pow`.  `0**y` for `y < 0` raises
`ZeroDivisionError` when `y` is an integer or half-integer (`mpf_pow_int`, `1/sqrt(0)`); for the
other negative `y` mpmath takes `exp(y*log(0)) = +inf`. -/
noncomputable def power : Num → Num → M Num
  | fin x, fin y =>
      if 0 < x then .ok (fin (x ^ y))
      else if x = 0 then
        (if 0 < y then .ok (fin 0) else if y = 0 then .ok (fin 1)
         else if (⌊2 * y⌋ : ℝ) = 2 * y then .error .zeroDivision else .ok pinf)
      else if (⌊y⌋ : ℝ) = y then .ok (fin (x ^ ⌊y⌋)) else .error .complexResult
  | pinf, fin y => if 0 < y then .ok pinf else if y = 0 then .ok nan else .ok (fin 0)
  | ninf, fin y =>
      if (⌊y⌋ : ℝ) = y then
        (if 0 < y then (if ⌊y⌋ % 2 = 0 then .ok pinf else .ok ninf)
         else if y = 0 then .ok nan else .ok (fin 0))
      else .error .complexResult
  | fin x, pinf =>
      if x < 0 then .error .complexResult
      else if x < 1 then .ok (fin 0) else if x = 1 then .ok nan else .ok pinf
  | fin x, ninf =>
      if x < 0 then .error .complexResult
      else if x < 1 then .ok pinf else if x = 1 then .ok nan else .ok (fin 0)
  | pinf, pinf => .ok pinf
  | pinf, ninf => .ok (fin 0)
  | ninf, pinf => .error .complexResult
  | ninf, ninf => .error .complexResult
  | _, _ => .ok nan
theorem power_pos {x : ℝ} (h : 0 < x) (y : ℝ) : power (fin x) (fin y) = .ok (fin (x ^ y)) := by
  simp [power, h]
theorem power_zero_pos {y : ℝ} (h : 0 < y) : power (fin 0) (fin y) = .ok (fin 0) := by
  simp [power, h]
@[simp] theorem power_zero_zero : power (fin 0) (fin 0) = .ok (fin 1) := by
  simp [power]
theorem power_zero_neg {y : ℝ} (h : y < 0) :
    power (fin 0) (fin y) =
      if (⌊2 * y⌋ : ℝ) = 2 * y then .error .zeroDivision else .ok pinf := by
  simp [power, h.ne, not_lt.2 h.le]
theorem power_zero_neg_half {y : ℝ} {k : ℤ} (h : y < 0) (hk : 2 * y = k) :
    power (fin 0) (fin y) = .error .zeroDivision := by
  rw [power_zero_neg h, hk, Int.floor_intCast, if_pos rfl]
/-- For a nonnegative base and positive exponent the result is the real power. -/
theorem power_nonneg {x y : ℝ} (h : 0 ≤ x) (hy : 0 < y) :
    power (fin x) (fin y) = .ok (fin (x ^ y)) := by
  rcases h.eq_or_lt with rfl | h
  · rw [power_zero_pos hy, Real.zero_rpow hy.ne']
  · exact power_pos h y

/-- `mp.powm1(x, y) = x**y - 1` -/
noncomputable def powm1 (x y : Num) : M Num := do return (← power x y) - 1
theorem powm1_pos {x : ℝ} (h : 0 < x) (y : ℝ) :
    powm1 (fin x) (fin y) = .ok (fin (x ^ y - 1)) := by
  simp [powm1, power_pos h]

/-- `x**n` with a literal nonnegative Python integer exponent (for finite bases simply the
monoid power; used only in polynomial expressions such as `x**2`). -/
noncomputable def ipow : Num → ℕ → Num
  | _, 0 => 1
  | x, n + 1 => ipow x n * x
@[simp] theorem ipow_fin (x : ℝ) (n : ℕ) : ipow (fin x) n = fin (x ^ n) := by
  induction n with
  | zero => simp [ipow]
  | succ n ih => simp [ipow, ih, pow_succ]

/-- `mp.sin`; nan at the infinities. -/
noncomputable def sin : Num → Num
  | fin x => fin (Real.sin x)
  | _ => nan
@[simp] theorem sin_fin (x : ℝ) : sin (fin x) = fin (Real.sin x) := rfl
/-- `mp.cos`; nan at the infinities. -/
noncomputable def cos : Num → Num
  | fin x => fin (Real.cos x)
  | _ => nan
@[simp] theorem cos_fin (x : ℝ) : cos (fin x) = fin (Real.cos x) := rfl
/-- `mp.tan`.  A floating-point argument never hits a pole, so what mpmath returns for an argument
that would be a pole in exact arithmetic depends on rounding only: not modelled. -/
noncomputable def tan : Num → M Num
  | fin x => if Real.cos x = 0 then .error .notModelled else .ok (fin (Real.tan x))
  | _ => .ok nan
theorem tan_fin {x : ℝ} (h : Real.cos x ≠ 0) : tan (fin x) = .ok (fin (Real.tan x)) := by
  simp [tan, h]
/-- `mp.atan` -/
noncomputable def atan : Num → Num
  | fin x => fin (Real.arctan x)
  | pinf => fin (Real.pi / 2)
  | ninf => fin (-(Real.pi / 2))
  | nan => nan
@[simp] theorem atan_fin (x : ℝ) : atan (fin x) = fin (Real.arctan x) := rfl
@[simp] theorem atan_pinf : atan pinf = fin (Real.pi / 2) := rfl
@[simp] theorem atan_ninf : atan ninf = fin (-(Real.pi / 2)) := rfl
/-- `mp.pi` -/
noncomputable def pi : Num := fin Real.pi
@[simp] theorem pi_def : pi = fin Real.pi := rfl

/-- `mp.gamma` at positive arguments; poles and negative arguments are not needed by the
modelled code and are reported as `valueError` (mpmath raises ValueError at the poles). -/
noncomputable def gamma : Num → M Num
  | fin x => if 0 < x then .ok (fin (Real.Gamma x)) else .error .valueError
  | pinf => .ok pinf
  | _ => .ok nan
theorem gamma_pos {x : ℝ} (h : 0 < x) : gamma (fin x) = .ok (fin (Real.Gamma x)) := by
  simp [gamma, h]

/-- `mp.loggamma` at positive arguments (`loggamma(0) = inf` in mpmath; negative arguments give
complex values). -/
noncomputable def loggamma : Num → M Num
  | fin x => if 0 < x then .ok (fin (Real.log (Real.Gamma x)))
             else if x = 0 then .ok pinf else .error .complexResult
  | pinf => .ok pinf
  | ninf => .error .complexResult
  | nan => .ok nan
theorem loggamma_pos {x : ℝ} (h : 0 < x) :
    loggamma (fin x) = .ok (fin (Real.log (Real.Gamma x))) := by
  simp [loggamma, h]

/-- `mp.sign` -/
noncomputable def sign : Num → Num
  | fin x => if 0 < x then 1 else if x < 0 then fin (-1) else 0
  | pinf => 1
  | ninf => fin (-1)
  | nan => nan

/-- `mp.isnan` -/
def isnan : Num → Prop
  | nan => True
  | _ => False
@[simp] theorem isnan_fin (x : ℝ) : isnan (fin x) ↔ False := Iff.rfl
@[simp] theorem isnan_pinf : isnan pinf ↔ False := Iff.rfl
@[simp] theorem isnan_ninf : isnan ninf ↔ False := Iff.rfl
@[simp] theorem isnan_nan : isnan nan ↔ True := Iff.rfl

/-- `mp.fsum`: the sum of a sequence. -/
noncomputable def fsum (l : List Num) : Num := l.foldr (· + ·) 0
@[simp] theorem fsum_nil : fsum [] = fin 0 := rfl
@[simp] theorem fsum_cons (a : Num) (l : List Num) : fsum (a :: l) = a + fsum l := rfl
theorem fsum_fin (l : List ℝ) : fsum (l.map fin) = fin l.sum := by
  induction l with
  | nil => simp
  | cons a l ih => simp [ih]
theorem fsum_map_fin {α : Type} (l : List α) (f : α → ℝ) :
    fsum (l.map fun a => fin (f a)) = fin (l.map f).sum := by
  induction l with
  | nil => simp
  | cons a l ih => simp only [List.map_cons, fsum_cons, ih, fin_add, List.sum_cons]

end Mpsci.mp

namespace Mpsci.mp

open Classical Num

/-- `mp.tanh` -/
noncomputable def tanh : Num → Num
  | fin x => fin (Real.tanh x)
  | pinf => fin 1
  | ninf => fin (-1)
  | nan => nan
@[simp] theorem tanh_fin (x : ℝ) : tanh (fin x) = fin (Real.tanh x) := rfl
@[simp] theorem tanh_pinf : tanh pinf = fin 1 := rfl
@[simp] theorem tanh_ninf : tanh ninf = fin (-1) := rfl
/-- `mp.cosh` -/
noncomputable def cosh : Num → Num
  | fin x => fin (Real.cosh x)
  | pinf => pinf
  | ninf => pinf
  | nan => nan
@[simp] theorem cosh_fin (x : ℝ) : cosh (fin x) = fin (Real.cosh x) := rfl
/-- `mp.sech(x) = 1/cosh(x)` -/
noncomputable def sech : Num → Num
  | fin x => fin (1 / Real.cosh x)
  | pinf => fin 0
  | ninf => fin 0
  | nan => nan
@[simp] theorem sech_fin (x : ℝ) : sech (fin x) = fin (1 / Real.cosh x) := rfl
/-- `mp.sinh` -/
noncomputable def sinh : Num → Num
  | fin x => fin (Real.sinh x)
  | pinf => pinf
  | ninf => ninf
  | nan => nan
@[simp] theorem sinh_fin (x : ℝ) : sinh (fin x) = fin (Real.sinh x) := rfl

end Mpsci.mp

namespace Mpsci.mp

open Classical Num

/-- `mp.atan2(y, x)` for a finite positive `y` (the only use in the modelled code is `y = 1`),
following `libmp.mpf_atan2`. -/
noncomputable def atan2pos (y : ℝ) : Num → Num
  | fin x => if 0 < x then fin (Real.arctan (y / x))
             else if x = 0 then fin (Real.pi / 2) else fin (Real.pi + Real.arctan (y / x))
  | pinf => fin 0
  | ninf => fin Real.pi
  | nan => nan
theorem atan2pos_one (x : ℝ) : atan2pos 1 (fin x) = fin (Real.pi / 2 - Real.arctan x) := by
  rcases lt_trichotomy x 0 with h | h | h
  · simp only [atan2pos, not_lt.2 h.le, if_false, h.ne, one_div, Real.arctan_inv_of_neg h]
    congr 1; ring
  · simp [h, atan2pos]
  · simp only [atan2pos, h, if_true, one_div, Real.arctan_inv_of_pos h]
@[simp] theorem atan2pos_pinf (y : ℝ) : atan2pos y pinf = fin 0 := rfl
@[simp] theorem atan2pos_ninf (y : ℝ) : atan2pos y ninf = fin Real.pi := rfl

/-- `mp.cot`: ZeroDivisionError where the sine vanishes.  In exact arithmetic that is at every
multiple of π; in floating point only 0 is hit. -/
noncomputable def cot : Num → M Num
  | fin x => if Real.sin x = 0 then .error .zeroDivision
             else .ok (fin (Real.cos x / Real.sin x))
  | _ => .ok nan

end Mpsci.mp
