import Verif.Spec

/-!
# Moments and entropy of a continuous distribution

What `mean`, `var`, `noncentral_moment` and `entropy` should return, in terms of the density that
`pdf` computes.  `E` is a finite set of points where `pdf` need not be finite.
-/

namespace Mpsci.Spec

open Classical Num MeasureTheory Set

/-- C37, C50: `r` is the (finite, absolutely convergent) `n`-th moment `∫ xⁿ pdf(x) dx`. -/
def IsMoment (E : Set ℝ) (pdf : Num → M Num) (n : ℕ) (r : M Num) : Prop :=
  E.Finite ∧ ∃ (f : ℝ → ℝ) (m : ℝ), RealFnOff E pdf f ∧ r = .ok (fin m) ∧
    Integrable (fun x => x ^ n * f x) ∧ ∫ x, x ^ n * f x = m

/-- C37: `r` is the mean `∫ x pdf(x) dx`. -/
def IsMean (E : Set ℝ) (pdf : Num → M Num) (r : M Num) : Prop :=
  E.Finite ∧ ∃ (f : ℝ → ℝ) (m : ℝ), RealFnOff E pdf f ∧ r = .ok (fin m) ∧
    Integrable (fun x => x * f x) ∧ ∫ x, x * f x = m

/-- C37: `r` is the variance `∫ (x - m)² pdf(x) dx`, where `m` is the mean. -/
def IsVar (E : Set ℝ) (pdf : Num → M Num) (r : M Num) : Prop :=
  E.Finite ∧ ∃ (f : ℝ → ℝ) (m v : ℝ), RealFnOff E pdf f ∧ r = .ok (fin v) ∧
    Integrable (fun x => x * f x) ∧ ∫ x, x * f x = m ∧
    Integrable (fun x => (x - m) ^ 2 * f x) ∧ ∫ x, (x - m) ^ 2 * f x = v

/-- C37: `r` is the differential entropy `-∫ pdf(x) log(pdf(x)) dx`. -/
def IsEntropy (E : Set ℝ) (pdf : Num → M Num) (r : M Num) : Prop :=
  E.Finite ∧ ∃ (f : ℝ → ℝ) (h : ℝ), RealFnOff E pdf f ∧ r = .ok (fin h) ∧
    Integrable (fun x => f x * Real.log (f x)) ∧ -∫ x, f x * Real.log (f x) = h

/-- C37: `r` is the skewness, `∫ (x - m)³ pdf(x) dx / v^(3/2)`, where `m` and `v` are the mean and the
variance. -/
def IsSkewness (E : Set ℝ) (pdf : Num → M Num) (r : M Num) : Prop :=
  E.Finite ∧ ∃ (f : ℝ → ℝ) (m v t : ℝ), RealFnOff E pdf f ∧
    Integrable (fun x => x * f x) ∧ ∫ x, x * f x = m ∧
    Integrable (fun x => (x - m) ^ 2 * f x) ∧ ∫ x, (x - m) ^ 2 * f x = v ∧
    Integrable (fun x => (x - m) ^ 3 * f x) ∧ ∫ x, (x - m) ^ 3 * f x = t ∧
    0 < v ∧ r = .ok (fin (t / v ^ (3 / 2 : ℝ)))

/-- C37: `r` is the excess kurtosis, `∫ (x - m)⁴ pdf(x) dx / v² - 3`. -/
def IsKurtosis (E : Set ℝ) (pdf : Num → M Num) (r : M Num) : Prop :=
  E.Finite ∧ ∃ (f : ℝ → ℝ) (m v u : ℝ), RealFnOff E pdf f ∧
    Integrable (fun x => x * f x) ∧ ∫ x, x * f x = m ∧
    Integrable (fun x => (x - m) ^ 2 * f x) ∧ ∫ x, (x - m) ^ 2 * f x = v ∧
    Integrable (fun x => (x - m) ^ 4 * f x) ∧ ∫ x, (x - m) ^ 4 * f x = u ∧
    0 < v ∧ r = .ok (fin (u / v ^ 2 - 3))

end Mpsci.Spec
