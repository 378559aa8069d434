import Verif.Spec.Fit
import Verif.Spec.Stats
import Verif.Base.Discrete

/-! Specification of data given with counts, for the discrete distributions. -/

namespace Mpsci.Spec

open Num

/-- The data that are meant by `x=ks, counts=c`: without counts `ks` itself, with counts `ks i` repeated `c i` times. -/
def meant (ks : List ℤ) : Option (List ℕ) → List ℤ
  | none => ks
  | some c => replicated ks c

/-- Integers, and optional counts, as they are passed to the library. -/
noncomputable def ints (ks : List ℤ) : List Num := ks.map ofInt
noncomputable def counts (c : Option (List ℕ)) : Option (List Num) := c.map fun c => c.map fun n : ℕ => ofInt n

/-- There are as many counts as data. -/
def Matching (ks : List ℤ) (c : Option (List ℕ)) : Prop := ∀ l, c = some l → l.length = ks.length

/-- C30 for a discrete distribution: `nll` is minus the sum of `logpmf`, for every list of data in `S`. -/
def NllIsNegSumZ (S : Set ℤ) (logpmf : ℤ → M Num) (nll : List Num → M Num) : Prop :=
  ∀ ks : List ℤ, (∀ k ∈ ks, k ∈ S) → ∃ ls : List ℝ, ks.mapM logpmf = .ok (ls.map fin) ∧
    nll (ints ks) = .ok (fin (-ls.sum))

/-- C29: data with counts mean the replicated data. -/
def CountsReplicate (S : Set ℤ) (nll : List Num → Option (List Num) → M Num) : Prop :=
  ∀ (ks : List ℤ) (c : List ℕ), c.length = ks.length → (∀ k ∈ ks, k ∈ S) →
    ∃ a : ℝ, nll (ints ks) (counts (some c)) = .ok (fin a) ∧ nll (ints (replicated ks c)) none = .ok (fin a)

/-- C29: counts of the wrong length, or that are negative or not integers, are rejected with ValueError. -/
def CountsRejects (S : Set ℤ) (nll : List Num → Option (List Num) → M Num) : Prop :=
  ∀ (ks : List ℤ) (c : List ℝ), (∀ k ∈ ks, k ∈ S) → (c.length ≠ ks.length ∨ ∃ v ∈ c, ∀ n : ℕ, v ≠ n) →
    nll (ints ks) (some (c.map fin)) = .error .valueError

end Mpsci.Spec
