import Verif.Base.Num
import Mathlib.Analysis.Calculus.Deriv.Basic
import Mathlib.Analysis.SpecialFunctions.Gamma.Basic
import Mathlib.Algebra.Polynomial.Eval.Degree
import Mathlib.MeasureTheory.Integral.IntervalIntegral.Basic

/-! Specifications of the special functions in `mpsci.fun`. -/

namespace Mpsci.Spec

open Classical Num

/-- C57: `f(n, x)` is the probabilists' Hermite polynomial, given by Rodrigues' formula. -/
def IsHermiteE (f : Num → Num → M Num) : Prop :=
  ∀ (n : ℕ) (x : ℝ), f (fin n) (fin x) =
    .ok (fin ((-1) ^ n * Real.exp (x ^ 2 / 2) * deriv^[n] (fun t => Real.exp (-(t ^ 2 / 2))) x))

/-- C58: for every order `n ∈ S` and every `z > 0`, `f(n-1, z) + σ f(n+1, z) = c (2n + 1)/z f(n, z)`. -/
def SphericalRec (S : Set ℝ) (σ c : ℝ) (f : Num → Num → M Num) : Prop :=
  ∀ n ∈ S, ∀ z : ℝ, 0 < z → ∃ u v w : ℝ, f (fin (n - 1)) (fin z) = .ok (fin u) ∧ f (fin n) (fin z) = .ok (fin v) ∧
    f (fin (n + 1)) (fin z) = .ok (fin w) ∧ u + σ * w = c * (2 * n + 1) / z * v

/-- C58: for every `z > 0`, `f(n, z) = g z`. -/
def SphericalAt (n : ℝ) (f : Num → Num → M Num) (g : ℝ → ℝ) : Prop :=
  ∀ z : ℝ, 0 < z → f (fin n) (fin z) = .ok (fin (g z))

/-- C59: `v` is the sum of Wright's series; the terms in which the gamma function has a pole are 0. -/
def IsWright (z ρ β v : ℝ) : Prop :=
  HasSum (fun k : ℕ => if ∃ m : ℕ, ρ * k + β = -m then 0 else z ^ k / (k.factorial * Real.Gamma (ρ * k + β))) v

/-- C60: nodes `xs` in increasing order inside `(-1, 1)` and positive weights `ws`, `n` of each, such that the quadrature rule is
exact for every polynomial of degree less than `2 n`. -/
def IsGaussLegendre (n : ℕ) (xs ws : List ℝ) : Prop :=
  xs.length = n ∧ ws.length = n ∧ xs.Pairwise (· < ·) ∧ (∀ x ∈ xs, -1 < x ∧ x < 1) ∧ (∀ w ∈ ws, 0 < w) ∧
    ∀ p : Polynomial ℝ, p.natDegree < 2 * n → (List.zipWith (fun x w => w * p.eval x) xs ws).sum = ∫ x in (-1:ℝ)..1, p.eval x

/-- C61: the Debye function of order `n` at `x ≠ 0`. -/
noncomputable def debye (n : ℕ) (x : ℝ) : ℝ := n / x ^ n * ∫ t in (0:ℝ)..x, t ^ n / (Real.exp t - 1)

end Mpsci.Spec
