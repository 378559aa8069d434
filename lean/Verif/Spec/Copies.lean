import Verif.Spec

/-! The words C81 is stated in. -/

namespace Mpsci.Spec

open Num

/-- The data `k` times over. -/
def copies {α : Type} (k : ℕ) (xs : List α) : List α := (List.replicate k xs).flatten

/-- C81: for data in `ok`, `f` returns a value, and the same value for the data any number of times over. -/
def Repeats {α : Type} (ok : List ℝ → Prop) (f : List Num → M α) : Prop :=
  ∀ xs : List ℝ, xs ≠ [] → ok xs → ∃ v : α, f (xs.map fin) = .ok v ∧ ∀ k : ℕ, 0 < k → f ((copies k xs).map fin) = .ok v

/-- C81 for the likelihoods: for two samples in `S`, the value for the pooled sample is the sum of the values. -/
def Pools (S : Set ℝ) (nll : List Num → M Num) : Prop :=
  ∀ xs ys : List ℝ, (∀ x ∈ xs, x ∈ S) → (∀ y ∈ ys, y ∈ S) → ∃ a b : ℝ, nll (xs.map fin) = .ok (fin a) ∧ nll (ys.map fin) = .ok (fin b) ∧
    nll ((xs ++ ys).map fin) = .ok (fin (a + b))

end Mpsci.Spec
