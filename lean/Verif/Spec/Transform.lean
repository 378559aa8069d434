import Verif.Base.NormalErf
import Mathlib.Analysis.SpecialFunctions.Trigonometric.Deriv
import Mathlib.Analysis.SpecialFunctions.Log.Basic
import Mathlib.Analysis.Calculus.Deriv.Basic

/-! What C54 and C55 mean. -/

namespace Mpsci.Spec

open Num

/-- The log-likelihood of the data `xs` when the transformed values `T x` have the normal distribution with mean `μ` and
standard deviation `σ`, so that the density of the data is the normal density at `T x`, times the derivative of `T`. -/
noncomputable def transLogLik (T : ℝ → ℝ) (xs : List ℝ) (μ σ : ℝ) : ℝ :=
  (xs.map fun x => Real.log (Real.exp (-(T x - μ) ^ 2 / (2 * σ ^ 2)) / (σ * Real.sqrt (2 * Real.pi)) * deriv T x)).sum

/-- `llf` is, up to the constant `n/2 (1 + log(2π))`, the largest value of the log-likelihood over all means and all positive
standard deviations, and that largest value is attained. -/
def IsProfileLogLik (T : ℝ → ℝ) (xs : List ℝ) (llf : M Num) : Prop :=
  ∃ L : ℝ, IsGreatest {y | ∃ μ σ : ℝ, 0 < σ ∧ y = transLogLik T xs μ σ} L ∧
    llf = .ok (fin (L + xs.length / 2 * (1 + Real.log (2 * Real.pi))))

/-- The number `z` with `tanh(z) = ρ` lies `c` standard errors, that is `c/sqrt(n - 3)`, above that of `r`, where `c` is the point
with standard normal probability `p` to its left. -/
def AtLevel (r n ρ p : ℝ) : Prop := ∃ z0 z : ℝ, Real.tanh z0 = r ∧ Real.tanh z = ρ ∧ Phi ((z - z0) * Real.sqrt (n - 3)) = p

end Mpsci.Spec
