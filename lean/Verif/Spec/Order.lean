import Verif.Spec

/-! The words C77 is stated in. -/

namespace Mpsci.Spec

open Num

/-- C77: if `f` returns a value for some real data, it returns the same value for the same data in any
other order. -/
def OrderFree {α : Type} (f : List Num → M α) : Prop :=
  ∀ x y : List ℝ, x.Perm y → ∀ v : α, f (x.map fin) = .ok v → f (y.map fin) = .ok v

/-- C77 for paired data: the pairs may be reordered. -/
def PairOrderFree {α : Type} (f : List Num → List Num → M α) : Prop :=
  ∀ z w : List (ℝ × ℝ), z.Perm w → ∀ v : α,
    f (z.map fun q => fin q.1) (z.map fun q => fin q.2) = .ok v →
    f (w.map fun q => fin q.1) (w.map fun q => fin q.2) = .ok v

/-- A root finder sees the function it is given only through the values that the function returns: for
two functions that return the same values it gives the same result. -/
def SeesValues {α β : Type} (findroot : (Num → M β) → α → M β) : Prop :=
  ∀ F G : Num → M β, (∀ t v, F t = .ok v ↔ G t = .ok v) → ∀ s v, findroot F s = .ok v → findroot G s = .ok v

/-- `SeesValues` for two unknowns. -/
def SeesValues2 {α β : Type} (findroot : (Num → Num → M β) → α → M β) : Prop :=
  ∀ F G : Num → Num → M β, (∀ s t v, F s t = .ok v ↔ G s t = .ok v) → ∀ s v, findroot F s = .ok v → findroot G s = .ok v

/-- `SeesValues` for three unknowns. -/
def SeesValues3 {α β : Type} (findroot : (Num → Num → Num → M β) → α → M β) : Prop :=
  ∀ F G : Num → Num → Num → M β, (∀ r s t v, F r s t = .ok v ↔ G r s t = .ok v) →
    ∀ s v, findroot F s = .ok v → findroot G s = .ok v

end Mpsci.Spec
