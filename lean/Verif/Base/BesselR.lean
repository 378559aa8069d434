import Verif.Base.Mp
import Mathlib.Analysis.SpecialFunctions.Gamma.Basic
import Mathlib.Analysis.SpecialFunctions.Trigonometric.Basic

/-! Bessel functions of real order. -/

namespace Mpsci

open Classical Num

/-- Wright's function `Φ(ρ, β; z) = Σ z^k / (k! Γ(ρ k + β))`; terms in which Γ has a pole are 0 (Mathlib's `Gamma` is 0 there, and
division by 0 gives 0). -/
noncomputable def wrightR (ρ β z : ℝ) : ℝ := ∑' k : ℕ, z ^ k / (k.factorial * Real.Gamma (ρ * k + β))

/-- `I_ν(x)` for `x > 0`, by its series -/
noncomputable def besselIR (ν x : ℝ) : ℝ := ∑' k : ℕ, (x / 2) ^ (2 * (k : ℝ) + ν) / (k.factorial * Real.Gamma (k + ν + 1))

/-- `J_ν(x)` for `x > 0`, by its series -/
noncomputable def besselJR (ν x : ℝ) : ℝ := ∑' k : ℕ, (-1) ^ k * (x / 2) ^ (2 * (k : ℝ) + ν) / (k.factorial * Real.Gamma (k + ν + 1))

/-- `Y_ν(x)` for an order that is not an integer -/
noncomputable def besselYR (ν x : ℝ) : ℝ := (besselJR ν x * Real.cos (ν * Real.pi) - besselJR (-ν) x) / Real.sin (ν * Real.pi)

/-- `K_ν(x)` for `x > 0`, by its integral -/
noncomputable def besselKR (ν x : ℝ) : ℝ := (∫ z in Set.Ioi (0:ℝ), z ^ (ν - 1) * Real.exp (-x * (z + 1 / z) / 2)) / 2

/-- `mp.besseli(nu, x)`: for `x > 0` by the series; at `x = 0` for nonnegative order; at negative `x` for a natural order, where it is even or
odd.  Other arguments are not modelled. -/
noncomputable def mp.besseliR : Num → Num → M Num
  | fin ν, fin x =>
    if 0 < x then .ok (fin (besselIR ν x))
    else if x = 0 then (if ν = 0 then .ok 1 else if 0 < ν then .ok 0 else .error .notModelled)
    else if ν = ⌊ν⌋₊ then .ok (fin ((-1) ^ ⌊ν⌋₊ * besselIR ν (-x)))
    else .error .notModelled
  | _, _ => .error .notModelled
/-- `mp.besselj(nu, x)` for `x > 0` -/
noncomputable def mp.besseljR : Num → Num → M Num
  | fin ν, fin x => if 0 < x then .ok (fin (besselJR ν x)) else .error .notModelled
  | _, _ => .error .notModelled
/-- `mp.bessely(nu, x)` for `x > 0` and orders that are not integers -/
noncomputable def mp.besselyR : Num → Num → M Num
  | fin ν, fin x => if 0 < x ∧ ∀ n : ℤ, ν ≠ n then .ok (fin (besselYR ν x)) else .error .notModelled
  | _, _ => .error .notModelled
/-- `mp.besselk(nu, x)` for `x > 0` -/
noncomputable def mp.besselkR : Num → Num → M Num
  | fin ν, fin x => if 0 < x then .ok (fin (besselKR ν x)) else .error .notModelled
  | _, _ => .error .notModelled

theorem mp.besseliR_pos (ν : ℝ) {x : ℝ} (h : 0 < x) : mp.besseliR (fin ν) (fin x) = .ok (fin (besselIR ν x)) := if_pos h
theorem mp.besseljR_pos (ν : ℝ) {x : ℝ} (h : 0 < x) : mp.besseljR (fin ν) (fin x) = .ok (fin (besselJR ν x)) := if_pos h
theorem mp.besselkR_pos (ν : ℝ) {x : ℝ} (h : 0 < x) : mp.besselkR (fin ν) (fin x) = .ok (fin (besselKR ν x)) := if_pos h
theorem mp.besselyR_pos {ν x : ℝ} (h : 0 < x) (hν : ∀ n : ℤ, ν ≠ n) : mp.besselyR (fin ν) (fin x) = .ok (fin (besselYR ν x)) := if_pos ⟨h, hν⟩

/-- `mp.gamma` on the whole real line: ValueError at the poles -/
noncomputable def mp.gammaReal : Num → M Num
  | fin x => if ∃ n : ℕ, x = -n then .error .valueError else .ok (fin (Real.Gamma x))
  | pinf => .ok pinf
  | _ => .ok nan

end Mpsci
