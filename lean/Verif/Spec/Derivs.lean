import Verif.Base.Num
import Mathlib.Analysis.Calculus.Deriv.Basic
import Mathlib.Data.Matrix.Mul
import Mathlib.LinearAlgebra.Matrix.Notation

/-!
# Gradient, Hessian matrix and its inverse (C43)

Of functions of two (or three) real parameters that are given by code.
-/

namespace Mpsci.Spec

open Num

/-- On `S` (a set of parameters), `f` is a real function and `grad` returns its two partial derivatives. -/
def IsGradient (S : Set (ℝ × ℝ)) (f : ℝ → ℝ → M Num) (grad : ℝ → ℝ → M (Num × Num)) : Prop :=
  ∃ L : ℝ → ℝ → ℝ, ∀ p ∈ S, f p.1 p.2 = .ok (fin (L p.1 p.2)) ∧
    ∃ g₁ g₂ : ℝ, grad p.1 p.2 = .ok (fin g₁, fin g₂) ∧
      HasDerivAt (fun a => L a p.2) g₁ p.1 ∧ HasDerivAt (fun b => L p.1 b) g₂ p.2

/-- The same for three parameters. -/
def IsGradient3 (S : Set (ℝ × ℝ × ℝ)) (f : ℝ → ℝ → ℝ → M Num) (grad : ℝ → ℝ → ℝ → M (Num × Num × Num)) : Prop :=
  ∃ L : ℝ → ℝ → ℝ → ℝ, ∀ p ∈ S, f p.1 p.2.1 p.2.2 = .ok (fin (L p.1 p.2.1 p.2.2)) ∧
    ∃ g₁ g₂ g₃ : ℝ, grad p.1 p.2.1 p.2.2 = .ok (fin g₁, fin g₂, fin g₃) ∧
      HasDerivAt (fun a => L a p.2.1 p.2.2) g₁ p.1 ∧ HasDerivAt (fun b => L p.1 b p.2.2) g₂ p.2.1 ∧
      HasDerivAt (fun c => L p.1 p.2.1 c) g₃ p.2.2

/-- A 2 by 2 matrix of real numbers as code returns it. -/
def mat (A : Matrix (Fin 2) (Fin 2) ℝ) : (Num × Num) × (Num × Num) := ((fin (A 0 0), fin (A 0 1)), (fin (A 1 0), fin (A 1 1)))

/-- On `S`, `hess` returns the matrix of partial derivatives of the two components of `grad`. -/
def IsHessian (S : Set (ℝ × ℝ)) (grad : ℝ → ℝ → M (Num × Num)) (hess : ℝ → ℝ → M ((Num × Num) × (Num × Num))) : Prop :=
  ∃ G₁ G₂ : ℝ → ℝ → ℝ, ∀ p ∈ S, grad p.1 p.2 = .ok (fin (G₁ p.1 p.2), fin (G₂ p.1 p.2)) ∧
    ∃ H : Matrix (Fin 2) (Fin 2) ℝ, hess p.1 p.2 = .ok (mat H) ∧
      HasDerivAt (fun a => G₁ a p.2) (H 0 0) p.1 ∧ HasDerivAt (fun b => G₁ p.1 b) (H 0 1) p.2 ∧
      HasDerivAt (fun a => G₂ a p.2) (H 1 0) p.1 ∧ HasDerivAt (fun b => G₂ p.1 b) (H 1 1) p.2

/-- `inv` is the inverse of the matrix `hess`; when `hess` is singular, `inv` divides by zero. -/
def IsInverse (hess inv : M ((Num × Num) × (Num × Num))) : Prop :=
  ∃ H : Matrix (Fin 2) (Fin 2) ℝ, hess = .ok (mat H) ∧
    ((∃ V : Matrix (Fin 2) (Fin 2) ℝ, inv = .ok (mat V) ∧ V * H = 1 ∧ H * V = 1) ∨
      ((∀ V : Matrix (Fin 2) (Fin 2) ℝ, V * H ≠ 1) ∧ inv = .error .zeroDivision))

end Mpsci.Spec
