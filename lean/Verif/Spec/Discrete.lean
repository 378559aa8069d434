import Verif.Base.Num
import Mathlib.Topology.Algebra.InfiniteSum.Defs

/-!
# Specification vocabulary for the discrete distributions

Integer-valued distributions as a caller sees them: functions from Python integers to numbers.
Sums are unconditional sums over all integers (`HasSum`), so finite and infinite supports are treated
alike.
-/

namespace Mpsci.Spec

open Classical Num

/-- Called with any integer `k ∈ D`, `pmf` returns the finite number `f k`; outside `D` the mass `f` is
zero (with `D = univ` the call must return for every integer). -/
def Mass (D : Set ℤ) (pmf : ℤ → M Num) (f : ℤ → ℝ) : Prop :=
  (∀ k ∈ D, pmf k = .ok (fin (f k))) ∧ ∀ k ∉ D, f k = 0

/-- C33: `pmf` is nonnegative, is zero outside the support `S` and adds up to 1. -/
def IsPmf (D S : Set ℤ) (pmf : ℤ → M Num) : Prop :=
  S ⊆ D ∧ ∃ f, Mass D pmf f ∧ (∀ k, 0 ≤ f k) ∧ (∀ k, k ∉ S → f k = 0) ∧ HasSum f 1

/-- C34: `cdf k` is the sum of the masses at points `<= k`, for every `k ∈ C`. -/
def IsSumCdf (D C : Set ℤ) (pmf cdf : ℤ → M Num) : Prop :=
  ∃ f, Mass D pmf f ∧ ∀ k ∈ C, ∃ c : ℝ, cdf k = .ok (fin c) ∧
    HasSum (fun j => if j ≤ k then f j else 0) c

/-- C34: `sf k` is the sum of the masses at points `> k`, for every `k ∈ C`. -/
def IsSumSf (D C : Set ℤ) (pmf sf : ℤ → M Num) : Prop :=
  ∃ f, Mass D pmf f ∧ ∀ k ∈ C, ∃ c : ℝ, sf k = .ok (fin c) ∧
    HasSum (fun j => if k < j then f j else 0) c

/-- C35: `logpmf k` is the logarithm of `pmf k`, `-inf` when the latter is 0, for every `k ∈ L`. -/
def IsLogPmf (L : Set ℤ) (pmf logpmf : ℤ → M Num) : Prop :=
  ∀ k ∈ L, ∃ r : ℝ, 0 ≤ r ∧ pmf k = .ok (fin r) ∧
    logpmf k = .ok (if r = 0 then ninf else fin (Real.log r))

/-- C36: `mode` returns an integer where the mass is largest, the smallest such integer. -/
def IsDMode (D : Set ℤ) (pmf : ℤ → M Num) (mode : M ℤ) : Prop :=
  ∃ f m, Mass D pmf f ∧ mode = .ok m ∧ m ∈ D ∧ (∀ j, f j ≤ f m) ∧ ∀ j < m, f j < f m

/-- C37: `mean` is the expected value. -/
def IsDMean (D : Set ℤ) (pmf : ℤ → M Num) (mean : M Num) : Prop :=
  ∃ f, ∃ m : ℝ, Mass D pmf f ∧ mean = .ok (fin m) ∧ HasSum (fun k : ℤ => (k : ℝ) * f k) m

/-- C37: `var` is the expected squared deviation from the mean. -/
def IsDVar (D : Set ℤ) (pmf : ℤ → M Num) (mean var : M Num) : Prop :=
  ∃ f, ∃ m v : ℝ, Mass D pmf f ∧ mean = .ok (fin m) ∧ var = .ok (fin v) ∧
    HasSum (fun k : ℤ => (k : ℝ) * f k) m ∧ HasSum (fun k : ℤ => ((k : ℝ) - m) ^ 2 * f k) v

end Mpsci.Spec

namespace Mpsci.Spec

open Classical Num

/-- C38: `support` lists every vector of `S` exactly once and nothing else, and `p v` is the
finite number that `pmf v` returns for every listed vector. -/
def VecMass (S : Set (List ℤ)) (support : M (List (List ℤ))) (pmf : List ℤ → M Num)
    (l : List (List ℤ)) (p : List ℤ → ℝ) : Prop :=
  support = .ok l ∧ l.Nodup ∧ (∀ v, v ∈ l ↔ v ∈ S) ∧ ∀ v ∈ l, pmf v = .ok (fin (p v))

/-- The expected value of `g` for the masses `p` on the vectors `l`. -/
def expect (l : List (List ℤ)) (p : List ℤ → ℝ) (g : List ℤ → ℝ) : ℝ := (l.map fun v => g v * p v).sum

end Mpsci.Spec

namespace Mpsci.Spec

/-- C36, for a distribution documented to return the larger of two most probable values: `mode` returns an
integer where the mass is largest, the largest such integer. -/
def IsDModeHi (D : Set ℤ) (pmf : ℤ → M Num) (mode : M ℤ) : Prop :=
  ∃ f m, Mass D pmf f ∧ mode = .ok m ∧ m ∈ D ∧ (∀ j, f j ≤ f m) ∧ ∀ j > m, f j < f m

end Mpsci.Spec
