import Verif.Base.Digamma
import Mathlib.Analysis.SpecialFunctions.Gamma.Basic
import Mathlib.MeasureTheory.Integral.IntervalIntegral.Basic
import Mathlib.Analysis.Calculus.IteratedDeriv.Defs

/-!
# The incomplete gamma function, polygamma functions and quotients of gamma functions
-/

namespace Mpsci

open Classical Num MeasureTheory

/-- `∫ t^(k-1) e^(-t) dt` from `x` to `y` -/
noncomputable def gammaInt (k x y : ℝ) : ℝ := ∫ t in x..y, t ^ (k - 1) * Real.exp (-t)

/-- `∫ t^(k-1) e^(-t) dt` from `x` to infinity -/
noncomputable def gammaTail (k x : ℝ) : ℝ := ∫ t in Set.Ioi x, t ^ (k - 1) * Real.exp (-t)

namespace mp

/-- `mp.gammainc(k, a, b, regularized=True)` with a positive `k`: the integral of `t^(k-1) e^(-t)` from `a`
to `b`, divided by `Gamma(k)`.  A negative end point gives a real number only if `k` is an integer (mpmath
returns complex numbers otherwise).  `b = +inf` is allowed; `a = b = +inf` gives 0. -/
noncomputable def gammaincReg : Num → Num → Num → M Num
  | fin k, fin a, fin b =>
    if 0 < k ∧ (0 ≤ a ∧ 0 ≤ b ∨ ∃ n : ℕ, k = n + 1) then .ok (fin (gammaInt k a b / Real.Gamma k))
    else if 0 < k then .error .complexResult else .error .notModelled
  | fin k, fin a, pinf =>
    if 0 < k ∧ (0 ≤ a ∨ ∃ n : ℕ, k = n + 1) then .ok (fin (gammaTail k a / Real.Gamma k))
    else if 0 < k then .error .complexResult else .error .notModelled
  | fin k, pinf, pinf => if 0 < k then .ok 0 else .error .notModelled
  | _, _, _ => .error .notModelled

theorem gammaincReg_fin {k a b : ℝ} (hk : 0 < k) (ha : 0 ≤ a) (hb : 0 ≤ b) :
    gammaincReg (fin k) (fin a) (fin b) = .ok (fin (gammaInt k a b / Real.Gamma k)) := by
  simp [gammaincReg, hk, ha, hb]
theorem gammaincReg_pinf {k a : ℝ} (hk : 0 < k) (ha : 0 ≤ a) :
    gammaincReg (fin k) (fin a) pinf = .ok (fin (gammaTail k a / Real.Gamma k)) := by
  simp [gammaincReg, hk, ha]
theorem gammaincReg_pinf_pinf {k : ℝ} (hk : 0 < k) : gammaincReg (fin k) pinf pinf = .ok 0 := by
  simp [gammaincReg, hk]

/-- `mp.rgamma`, the reciprocal of the gamma function, at positive arguments -/
noncomputable def rgamma : Num → M Num
  | fin x => if 0 < x then .ok (fin (1 / Real.Gamma x)) else .error .notModelled
  | pinf => .ok 0
  | _ => .error .notModelled
theorem rgamma_pos {x : ℝ} (h : 0 < x) : rgamma (fin x) = .ok (fin (1 / Real.Gamma x)) := by
  simp [rgamma, h]

/-- `mp.gammaprod([a], [b])` for positive `a`, `b` -/
noncomputable def gammaprod : Num → Num → M Num
  | fin a, fin b => if 0 < a ∧ 0 < b then .ok (fin (Real.Gamma a / Real.Gamma b)) else .error .notModelled
  | _, _ => .error .notModelled
theorem gammaprod_pos {a b : ℝ} (ha : 0 < a) (hb : 0 < b) :
    gammaprod (fin a) (fin b) = .ok (fin (Real.Gamma a / Real.Gamma b)) := by
  simp [gammaprod, ha, hb]

/-- `mp.psi(m, x)` at positive arguments: the `m`-th derivative of the digamma function -/
noncomputable def psi (m : ℕ) : Num → M Num
  | fin x => if 0 < x then .ok (fin (iteratedDeriv m Mpsci.psi x)) else .error .notModelled
  | _ => .error .notModelled
theorem psi_pos (m : ℕ) {x : ℝ} (h : 0 < x) : psi m (fin x) = .ok (fin (iteratedDeriv m Mpsci.psi x)) := by
  simp [psi, h]
theorem psi0_pos {x : ℝ} (h : 0 < x) : psi 0 (fin x) = .ok (fin (Mpsci.psi x)) := by
  simp [psi, h, iteratedDeriv_zero]

end mp

end Mpsci
