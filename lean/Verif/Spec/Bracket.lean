import Verif.Base.Num

/-!
# What a bracket search has to deliver (C28)
-/

namespace Mpsci.Spec

open Num

/-- The real points of the interval with the (possibly infinite) ends `a`, `b`. -/
def dom (a b : Num) : Set ℝ := {x | a ≤ fin x ∧ fin x ≤ b}

/-- The call (given enough fuel for its loops, whatever the amount) returns a pair `(lo, hi)` of
points of `D` with `lo ≤ x ≤ hi`. -/
def Brackets (call : ℕ → M (Num × Num)) (D : Set ℝ) (x : ℝ) : Prop :=
  ∃ lo hi N, lo ∈ D ∧ hi ∈ D ∧ lo ≤ x ∧ x ≤ hi ∧ ∀ fuel ≥ N, call fuel = .ok (fin lo, fin hi)

end Mpsci.Spec
