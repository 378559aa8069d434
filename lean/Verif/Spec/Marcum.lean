import Verif.Base.Num
import Mathlib.Analysis.SpecialFunctions.Gamma.Basic
import Mathlib.MeasureTheory.Integral.IntervalIntegral.Basic

/-! C62: Marcum's Q function. -/

namespace Mpsci.Spec

open Classical Num Filter Topology Set

/-- the density under Marcum's Q function of order `m`: for `a = 0` that of the chi distribution with `2 m` degrees of freedom, otherwise with the
Bessel function `I_(m-1)(a x)` written as its series. -/
noncomputable def marcumDensity (m a x : ℝ) : ℝ :=
  if a = 0 then x ^ (2 * m - 1) * Real.exp (-x ^ 2 / 2) / (2 ^ (m - 1) * Real.Gamma m)
  else x * (x / a) ^ (m - 1) * Real.exp (-(x ^ 2 + a ^ 2) / 2) * ∑' k : ℕ, (a * x / 2) ^ (2 * (k:ℝ) + (m - 1)) / (k.factorial * Real.Gamma (k + m))

/-- C62: on `[0, ∞)` the function `c` is a continuous distribution function with density `d`, and `q = 1 - c`. -/
def IsTailPair (d : ℝ → ℝ) (q c : Num → M Num) : Prop :=
  ∃ F : ℝ → ℝ, ContinuousOn F (Ici 0) ∧ StrictMonoOn F (Ici 0) ∧ F 0 = 0 ∧ Tendsto F atTop (𝓝 1) ∧
    ∀ b : ℝ, 0 ≤ b → c (fin b) = .ok (fin (F b)) ∧ q (fin b) = .ok (fin (1 - F b)) ∧ F b = ∫ x in (0:ℝ)..b, d x

end Mpsci.Spec
