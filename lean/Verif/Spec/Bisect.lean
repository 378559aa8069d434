import Mathlib.Data.Real.Basic
import Mathlib.Order.Interval.Set.UnorderedInterval

/-!
# What a root finder has to deliver (C46)
-/

namespace Mpsci.Spec

open Set

/-- `r` and `s` are representable numbers with no other representable number between them. -/
def Neighbours (G : Set ℝ) (r s : ℝ) : Prop := r ∈ G ∧ s ∈ G ∧ ∀ t ∈ G, t ∈ uIcc r s → t = r ∨ t = s

/-- `r` is a representable number of the bracket that is a zero of `g` or has a neighbour in the
bracket at which `g` has the other sign. -/
def RootFound (G : Set ℝ) (g : ℝ → ℝ) (x0 x1 r : ℝ) : Prop :=
  r ∈ G ∧ r ∈ uIcc x0 x1 ∧
    (g r = 0 ∨ ∃ s ∈ uIcc x0 x1, Neighbours G r s ∧ g r * g s < 0)

end Mpsci.Spec
