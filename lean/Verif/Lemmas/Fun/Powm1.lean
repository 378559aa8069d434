import Verif.Model.Fun.Powm1
import Verif.Lemmas.Helpers

namespace Mpsci.fun_

open Classical Num

theorem xlogy_eval {x y : ℝ} (hy : 0 < y) : xlogy (fin x) (fin y) = .ok (fin (x * Real.log y)) := by
  by_cases h : x = 0
  · simp [xlogy, h]
  · simp [xlogy, h, mp.log_pos hy]

theorem xlog1py_eval {x y : ℝ} (hy : -1 < y) :
    xlog1py (fin x) (fin y) = .ok (fin (x * Real.log (1 + y))) := by
  by_cases h : x = 0
  · simp [xlog1py, h]
  · simp [xlog1py, h, mp.log1p_pos hy]

theorem pow1pm1_eval {x : ℝ} (y : ℝ) (hx : -1 < x) :
    pow1pm1 (fin x) (fin y) = .ok (fin ((1 + x) ^ y - 1)) := by
  have : 0 < 1 + x := by linarith
  rw [pow1pm1, xlog1py_eval hx, ok_bind, mp.expm1_fin, Real.rpow_def_of_pos this, mul_comm]; rfl

theorem invPow1pm1_eval {t y : ℝ} (ht : -1 < t) (hy : y ≠ 0) :
    invPow1pm1 (fin t) (fin y) = .ok (fin ((1 + t) ^ (1 / y) - 1)) := by
  have : 0 < 1 + t := by linarith
  simp [invPow1pm1, hy, ht.not_ge, fin_div _ hy, xlog1py_eval ht, Real.rpow_def_of_pos this,
    mul_comm]

theorem invPowm1_eval {t y : ℝ} (ht : -1 < t) (hy : y ≠ 0) :
    invPowm1 (fin t) (fin y) = .ok (fin ((1 + t) ^ (1 / y))) := by
  have : 0 < 1 + t := by linarith
  simp [invPowm1, hy, ht.not_ge, fin_div _ hy, xlog1py_eval ht, Real.rpow_def_of_pos this,
    mul_comm]

theorem rpow_rpow_inv {x y : ℝ} (hx : 0 ≤ x) (hy : y ≠ 0) : (x ^ y) ^ (1 / y) = x := by
  rw [← Real.rpow_mul hx, mul_one_div_cancel hy, Real.rpow_one]
theorem rpow_inv_rpow {x y : ℝ} (hx : 0 ≤ x) (hy : y ≠ 0) : (x ^ (1 / y)) ^ y = x := by
  rw [← Real.rpow_mul hx, one_div_mul_cancel hy, Real.rpow_one]

end Mpsci.fun_
