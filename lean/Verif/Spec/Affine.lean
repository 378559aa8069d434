import Verif.Spec
import Mathlib.Analysis.SpecialFunctions.Log.Basic

/-! The words C78 is stated in. -/

namespace Mpsci.Spec

open Num

/-- The data in other units: every value `x` becomes `a + c x`. -/
noncomputable def rescale (a c : ℝ) (xs : List ℝ) : List Num := (xs.map fun x => a + c * x).map fin

/-- C78: the fit `f`, which returns a location and a scale, succeeds for all data, and follows a change of
origin and unit: the location becomes `a + c loc`, the scale `c scale`. -/
def FollowsUnits (f : List Num → M (Num × Num)) : Prop :=
  ∀ xs : List ℝ, xs ≠ [] → ∀ a c : ℝ, 0 < c → ∃ loc scale : ℝ, f (xs.map fin) = .ok (fin loc, fin scale) ∧
    f (rescale a c xs) = .ok (fin (a + c * loc), fin (c * scale))

/-- C78 for a fit that returns the two ends of an interval: both ends follow. -/
def EndsFollowUnits (f : List Num → M (Num × Num)) : Prop :=
  ∀ xs : List ℝ, xs ≠ [] → ∀ a c : ℝ, 0 < c → ∃ l r : ℝ, f (xs.map fin) = .ok (fin l, fin r) ∧
    f (rescale a c xs) = .ok (fin (a + c * l), fin (a + c * r))

/-- C78 for a mean of positive data: it succeeds and is homogeneous of degree 1. -/
def Homogeneous (f : List Num → M Num) (ok : List ℝ → Prop) : Prop :=
  ∀ xs : List ℝ, xs ≠ [] → (∀ x ∈ xs, 0 < x) → ok xs → ∀ c : ℝ, 0 < c → ∃ m : ℝ, f (xs.map fin) = .ok (fin m) ∧
    f (rescale 0 c xs) = .ok (fin (c * m))
/-- C79: the negative log-likelihood in other units: `nll` are the old parameters, `nll'` the new ones; for data in `S` it
grows by `log c` per observation (the density is per unit of the data). -/
def NllFollowsUnits (S : Set ℝ) (a c : ℝ) (nll nll' : List Num → M Num) : Prop :=
  ∀ xs : List ℝ, (∀ x ∈ xs, x ∈ S) → ∃ N : ℝ, nll (xs.map fin) = .ok (fin N) ∧
    nll' (rescale a c xs) = .ok (fin (N + xs.length * Real.log c))

/-- A root finder that evaluates its function at real points only: functions that agree there give the same result. -/
def SeesReals (findroot : (Num → M Num) → Num → M Num) : Prop :=
  ∀ F G : Num → M Num, (∀ t : ℝ, F (fin t) = G (fin t)) → ∀ s : ℝ, findroot F (fin s) = findroot G (fin s)

end Mpsci.Spec
