import Verif.Spec

/-! The words C80 is stated in. -/

namespace Mpsci.Spec

open Num

/-- The mirrored data: every value `x` becomes `-x`. -/
noncomputable def mirrored (xs : List ℝ) : List Num := (xs.map fun x => -x).map fin

/-- C80: the fits `f` and `g`, which return a location and a scale, are mirror images: for all data both succeed, `g` on the mirrored
data gives the negative location and the same scale. -/
def MirrorFits (f g : List Num → M (Num × Num)) : Prop :=
  ∀ xs : List ℝ, xs ≠ [] → ∃ loc scale : ℝ, f (xs.map fin) = .ok (fin loc, fin scale) ∧ g (mirrored xs) = .ok (fin (-loc), fin scale)

/-- C80 for a fit that returns the two ends of an interval: the ends change places and signs. -/
def MirrorEnds (f : List Num → M (Num × Num)) : Prop :=
  ∀ xs : List ℝ, xs ≠ [] → ∃ l r : ℝ, f (xs.map fin) = .ok (fin l, fin r) ∧ f (mirrored xs) = .ok (fin (-r), fin (-l))

/-- C80 for likelihoods: the same value for the mirrored data in `S`; `nll'` is the likelihood with the mirrored parameters. -/
def MirrorNll (S : Set ℝ) (nll nll' : List Num → M Num) : Prop :=
  ∀ xs : List ℝ, (∀ x ∈ xs, x ∈ S) → ∃ N : ℝ, nll (xs.map fin) = .ok (fin N) ∧ nll' (mirrored xs) = .ok (fin N)

/-- A bracketing root finder for which `f` and `-f` are the same equation: it sees the function only at real points, and its result
does not depend on the sign of the function (an error of the function is the same error for both). -/
def SignFree (findroot : (Num → M Num) → Num → Num → M Num) : Prop :=
  ∀ F G : Num → M Num, (∀ t : ℝ, (∃ e, F (fin t) = .error e ∧ G (fin t) = .error e) ∨
    ∃ v : ℝ, F (fin t) = .ok (fin v) ∧ G (fin t) = .ok (fin (-v))) → ∀ s t : ℝ, findroot F (fin s) (fin t) = findroot G (fin s) (fin t)

/-- A root finder for two unknowns that does not depend on which of them is called the first: with the unknowns and the equations
exchanged it gives the exchanged solution. -/
def SwapFree (findroot2 : (Num → Num → M (Num × Num)) → Num × Num → M (Num × Num)) : Prop :=
  ∀ (F : Num → Num → M (Num × Num)) (s t : Num),
    findroot2 (fun a b => Prod.swap <$> F b a) (t, s) = Prod.swap <$> findroot2 F (s, t)

end Mpsci.Spec
