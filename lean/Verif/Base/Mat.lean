import Verif.Base.Mp
import Mathlib.LinearAlgebra.Matrix.NonsingularInverse

/-!
# `mp.matrix`

A matrix has its dimensions and its entries, as a function of two indices that matters only below the dimensions. `mp.det` and `mp.inverse` are
exact for matrices with real entries.
-/

namespace Mpsci.mp

open Classical Num

structure Mat where
  rows : ℕ
  cols : ℕ
  get : ℕ → ℕ → Num

namespace Mat

/-- `tmp = mp.matrix(n, 1)` followed by `for k, v in enumerate(l): tmp[k] = v` -/
noncomputable def col (n : ℕ) (l : List Num) : M Mat :=
  if n < l.length then .error .indexError else .ok ⟨n, 1, fun i _ => l.getD i 0⟩

/-- `A - B` -/
noncomputable def sub (A B : Mat) : M Mat :=
  if A.rows = B.rows ∧ A.cols = B.cols then .ok ⟨A.rows, A.cols, fun i j => A.get i j - B.get i j⟩ else .error .valueError

/-- `A.T` -/
def T (A : Mat) : Mat := ⟨A.cols, A.rows, fun i j => A.get j i⟩

/-- `A * B` -/
noncomputable def mul (A B : Mat) : M Mat :=
  if A.cols = B.rows then .ok ⟨A.rows, B.cols, fun i j => fsum ((List.range A.cols).map fun k => A.get i k * B.get k j)⟩ else .error .valueError

/-- the real square matrix with the same entries -/
def Is (A : Mat) (S : Matrix (Fin A.rows) (Fin A.rows) ℝ) : Prop := ∀ i j : Fin A.rows, A.get i j = fin (S i j)

end Mat

/-- `mp.det(A)` -/
noncomputable def det (A : Mat) : M Num :=
  if A.rows ≠ A.cols then .error .valueError
  else if h : ∃ S, A.Is S then .ok (fin h.choose.det) else .error .notModelled

/-- `mp.inverse(A)` -/
noncomputable def inverse (A : Mat) : M Mat :=
  if A.rows ≠ A.cols then .error .valueError
  else if h : ∃ S, A.Is S then
    if h.choose.det = 0 then .error .zeroDivision
    else .ok ⟨A.rows, A.rows, fun i j => if hij : i < A.rows ∧ j < A.rows then fin (h.choose⁻¹ ⟨i, hij.1⟩ ⟨j, hij.2⟩) else nan⟩
  else .error .notModelled

end Mpsci.mp
