import Verif.Lemmas.Fun.Powm1

/-! Properties of `fun.pow1pm1`, `fun.inv_pow1pm1`, `fun.inv_powm1`, `fun.xlogy`, `fun.xlog1py`. -/

namespace Mpsci.fun_

open Classical Num

variable {x y t : ℝ}

/-- C17: `pow1pm1(x, y)` is `(1 + x)**y - 1`. -/
theorem pow1pm1_eq (hx : -1 < x) : pow1pm1 (fin x) (fin y) = .ok (fin ((1 + x) ^ y - 1)) :=
  pow1pm1_eval y hx

/-- C17: `inv_pow1pm1(pow1pm1(x, y), y) = x`. -/
theorem invPow1pm1_pow1pm1 (hx : -1 < x) (hy : y ≠ 0) :
    (pow1pm1 (fin x) (fin y) >>= fun t => invPow1pm1 t (fin y)) = .ok (fin x) := by
  have h0 : 0 < 1 + x := by linarith
  have h1 : 0 < (1 + x) ^ y := Real.rpow_pos_of_pos h0 y
  rw [pow1pm1_eval y hx, ok_bind, invPow1pm1_eval (by linarith) hy, add_sub_cancel,
    rpow_rpow_inv h0.le hy]
  congr 2; ring

/-- C17: `pow1pm1(inv_pow1pm1(t, y), y) = t`. -/
theorem pow1pm1_invPow1pm1 (ht : -1 < t) (hy : y ≠ 0) :
    (invPow1pm1 (fin t) (fin y) >>= fun x => pow1pm1 x (fin y)) = .ok (fin t) := by
  have h0 : 0 < 1 + t := by linarith
  have h1 : 0 < (1 + t) ^ (1 / y) := Real.rpow_pos_of_pos h0 _
  rw [invPow1pm1_eval ht hy, ok_bind, pow1pm1_eval y (by linarith), add_sub_cancel,
    rpow_inv_rpow h0.le hy]
  congr 2; ring

/-- C17: `inv_powm1(x**y - 1, y) = x`, and `inv_powm1(t, y)**y - 1 = t`. -/
theorem invPowm1_inverse (hy : y ≠ 0) :
    (0 < x → (mp.powm1 (fin x) (fin y) >>= fun t => invPowm1 t (fin y)) = .ok (fin x)) ∧
    (-1 < t → (invPowm1 (fin t) (fin y) >>= fun x => mp.powm1 x (fin y)) = .ok (fin t)) := by
  constructor
  · intro hx
    have h1 : 0 < x ^ y := Real.rpow_pos_of_pos hx y
    rw [mp.powm1_pos hx, ok_bind, invPowm1_eval (by linarith) hy, add_sub_cancel,
      rpow_rpow_inv hx.le hy]
  · intro ht
    have h0 : 0 < 1 + t := by linarith
    rw [invPowm1_eval ht hy, ok_bind, mp.powm1_pos (Real.rpow_pos_of_pos h0 _),
      rpow_inv_rpow h0.le hy]
    congr 2; ring

/-- C17: both inverses raise ValueError exactly when `y = 0` or `t <= -1`, and otherwise return a
finite number. -/
theorem inverses_raise (t y : ℝ) :
    (invPow1pm1 (fin t) (fin y) = .error .valueError ↔ y = 0 ∨ t ≤ -1) ∧
    (invPowm1 (fin t) (fin y) = .error .valueError ↔ y = 0 ∨ t ≤ -1) ∧
    (¬ (y = 0 ∨ t ≤ -1) → (∃ v, invPow1pm1 (fin t) (fin y) = .ok (fin v)) ∧
      ∃ v, invPowm1 (fin t) (fin y) = .ok (fin v)) := by
  by_cases h : y = 0 ∨ t ≤ -1
  · have h1 : invPow1pm1 (fin t) (fin y) = .error .valueError := by
      by_cases hy : y = 0
      · simp [invPow1pm1, hy]
      · simp [invPow1pm1, h.resolve_left hy]
    have h2 : invPowm1 (fin t) (fin y) = .error .valueError := by
      by_cases hy : y = 0
      · simp [invPowm1, hy]
      · simp [invPowm1, h.resolve_left hy]
    simp [h, h1, h2]
  · have h' := h
    push Not at h
    rw [invPow1pm1_eval h.2 h.1, invPowm1_eval h.2 h.1]
    simp [h']

/-- C17: `xlogy(x, y)` is `x*log(y)`, and 0 for `x = 0` even where the logarithm is infinite or
undefined; likewise `xlog1py`. -/
theorem xlogy_spec :
    (0 < y → xlogy (fin x) (fin y) = .ok (fin (x * Real.log y))) ∧
    (xlogy 0 (fin y) = .ok 0) ∧
    (-1 < y → xlog1py (fin x) (fin y) = .ok (fin (x * Real.log (1 + y)))) ∧
    (xlog1py 0 (fin y) = .ok 0) :=
  ⟨xlogy_eval, by simp [xlogy], xlog1py_eval, by simp [xlog1py]⟩

/-- Non-vacuity: `(1 + 3)**(1/2) - 1 = 1`. -/
example : (-1:ℝ) < 3 ∧ (1 / 2 : ℝ) ≠ 0 ∧ pow1pm1 (fin 3) (fin (1 / 2)) = .ok (fin 1) := by
  refine ⟨by norm_num, by norm_num, ?_⟩
  rw [pow1pm1_eval _ (by norm_num), ← Real.sqrt_eq_rpow]
  have : Real.sqrt (1 + 3) = 2 := by
    rw [show (1 + 3 : ℝ) = 2 ^ 2 by norm_num]; exact Real.sqrt_sq (by norm_num)
  rw [this]; norm_num

end Mpsci.fun_
