import Verif.Base.Num
import Mathlib.MeasureTheory.Integral.Bochner.Set
import Mathlib.MeasureTheory.Measure.Lebesgue.Basic

/-!
# Specification vocabulary

The words in which the property theorems are stated.  Everything here speaks about functions
`Num → M Num` — what a caller of the Python API sees — and ordinary real analysis.  Nothing here
refers to the models of the individual functions.
-/

namespace Mpsci.Spec

open Classical Num Filter Topology MeasureTheory Set

/-- Called with any real `x`, `f` returns the finite number `g x` (it never raises and never
returns an infinity or nan). -/
def RealFn (f : Num → M Num) (g : ℝ → ℝ) : Prop := ∀ x : ℝ, f (fin x) = .ok (fin (g x))

/-- `RealFn` except possibly at the points of `E`. -/
def RealFnOff (E : Set ℝ) (f : Num → M Num) (g : ℝ → ℝ) : Prop :=
  ∀ x : ℝ, x ∉ E → f (fin x) = .ok (fin (g x))

/-- C01: `cdf x` and `sf x` are finite and add to 1, for every real `x`. -/
def Complementary (cdf sf : Num → M Num) : Prop :=
  ∀ x : ℝ, ∃ c s : ℝ, cdf (fin x) = .ok (fin c) ∧ sf (fin x) = .ok (fin s) ∧ c + s = 1

/-- C02: a continuous distribution function: defined for every real `x`, values in `[0, 1]`,
nondecreasing, continuous, with limits 0 and 1. -/
def IsCdf (cdf : Num → M Num) : Prop :=
  ∃ F : ℝ → ℝ, RealFn cdf F ∧ Monotone F ∧ Continuous F ∧ (∀ x, 0 ≤ F x ∧ F x ≤ 1) ∧
    Tendsto F atBot (𝓝 0) ∧ Tendsto F atTop (𝓝 1)

/-- C03: `pdf` is nonnegative, vanishes off the closed set `S` (the support), and its integral up
to `x` is `cdf x`, for every real `x`; its total integral is 1.  `E` is a (finite, in all uses)
set of points where `pdf` is not constrained (ends of the support where a density may be
infinite). -/
def IsDensity (E S : Set ℝ) (pdf cdf : Num → M Num) : Prop :=
  ∃ f F : ℝ → ℝ, RealFnOff E pdf f ∧ RealFn cdf F ∧ (∀ x, 0 ≤ f x) ∧ (∀ x, x ∉ S → f x = 0) ∧
    Integrable f ∧ (∀ x, ∫ t in Iic x, f t = F x) ∧ ∫ t, f t = 1

/-- C04: `logf x` is the logarithm of `f x`, `-inf` when `f x = 0`, for every real `x ∉ E`. -/
def IsLogOf (E : Set ℝ) (f logf : Num → M Num) : Prop :=
  ∀ x : ℝ, x ∉ E → ∃ r : ℝ, 0 ≤ r ∧ f (fin x) = .ok (fin r) ∧
    logf (fin x) = .ok (if r = 0 then ninf else fin (Real.log r))

/-- C05: on the open set `S` (the interior of the support) `inv` inverts `f`, both ways. -/
def Inverts (S : Set ℝ) (f inv : Num → M Num) : Prop :=
  (∀ p : ℝ, 0 < p → p < 1 → ∃ x ∈ S, inv (fin p) = .ok (fin x) ∧ f (fin x) = .ok (fin p)) ∧
  (∀ x ∈ S, ∃ p : ℝ, 0 < p ∧ p < 1 ∧ f (fin x) = .ok (fin p) ∧ inv (fin p) = .ok (fin x))

/-- C06: every real `p` outside `[0, 1]` is rejected with ValueError. -/
def RejectsBadP (inv : Num → M Num) : Prop :=
  ∀ p : ℝ, p < 0 ∨ 1 < p → inv (fin p) = .error .valueError

/-- A call returned (did not raise, did not leave the real line). -/
def Returns (r : M Num) : Prop := ∃ v : Num, r = .ok v

/-- C09: `mode` is a finite real number at which `pdf` is finite and at least as large as at any
other real point at which it is finite. -/
def IsMode (E : Set ℝ) (pdf : Num → M Num) (mode : M Num) : Prop :=
  ∃ m v : ℝ, mode = .ok (fin m) ∧ pdf (fin m) = .ok (fin v) ∧
    ∀ y : ℝ, y ∉ E → ∃ w : ℝ, pdf (fin y) = .ok (fin w) ∧ w ≤ v

/-- C07: a call returns a value when `valid` holds and raises ValueError when it does not. -/
def ValidatesExactly (valid : Prop) (r : M Num) : Prop :=
  (valid → Returns r) ∧ (¬ valid → r = .error .valueError)

/-- C08 for cdf and sf: `g x loc scale = g ((x - loc)/scale) 0 1`. -/
def LocScaleInvariant (g : Num → Num → Num → M Num) : Prop :=
  ∀ x loc s : ℝ, 0 < s → g (fin x) (fin loc) (fin s) = g (fin ((x - loc) / s)) 0 1

/-- C08 for pdf: `g x loc scale = g ((x - loc)/scale) 0 1 / scale`. -/
def LocScaleDensity (g : Num → Num → Num → M Num) : Prop :=
  ∀ x loc s : ℝ, 0 < s → g (fin x) (fin loc) (fin s) =
    (do let v ← g (fin ((x - loc) / s)) 0 1; v /. fin s)

/-- C41: the quantile function at `p = 0` and `p = 1`. -/
def EndPoints (inv : Num → M Num) (at0 at1 : Num) : Prop :=
  inv 0 = .ok at0 ∧ inv 1 = .ok at1

/-- C48: values at the infinite arguments. -/
def AtInfinities (cdf sf : Num → M Num) : Prop :=
  cdf ninf = .ok 0 ∧ cdf pinf = .ok 1 ∧ sf ninf = .ok 1 ∧ sf pinf = .ok 0

/-- C08 for a scale parameter without location: `g x scale = g (x/scale) 1`. -/
def ScaleInvariant (g : Num → Num → M Num) : Prop :=
  ∀ x s : ℝ, 0 < s → g (fin x) (fin s) = g (fin (x / s)) 1

/-- C08 for pdf, scale parameter only: `g x scale = g (x/scale) 1 / scale`. -/
def ScaleDensity (g : Num → Num → M Num) : Prop :=
  ∀ x s : ℝ, 0 < s → g (fin x) (fin s) = (do let v ← g (fin (x / s)) 1; v /. fin s)

/-- C10: `median` is a real number at which `cdf` is one half. -/
def IsMedian (cdf : Num → M Num) (median : M Num) : Prop :=
  ∃ m : ℝ, median = .ok (fin m) ∧ cdf (fin m) = .ok (fin (1 / 2))

end Mpsci.Spec
