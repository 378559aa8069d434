import Verif.Base.Mp
import Mathlib.Data.Real.Basic
import Mathlib.Analysis.Calculus.Deriv.Basic
import Mathlib.Data.List.Forall2
import Mathlib.Algebra.BigOperators.Group.List.Basic

/-!
# Likelihoods and estimates

What `nll` should return for a list of data.
-/

namespace Mpsci.Spec

open Num

/-- C30: for data in `S`, every `logpdf x_i` is finite and `nll` is minus their sum. -/
def NllIsNegSum (S : Set ℝ) (logpdf : Num → M Num) (nll : List Num → M Num) : Prop :=
  ∀ xs : List ℝ, (∀ x ∈ xs, x ∈ S) → ∃ ls : List ℝ,
    List.Forall₂ (fun x l => logpdf (fin x) = .ok (fin l)) xs ls ∧
    nll (xs.map fin) = .ok (fin (-ls.sum))

/-- C30: data with a value outside `S` are rejected with ValueError. -/
def NllRejects (S : Set ℝ) (nll : List Num → M Num) : Prop :=
  ∀ xs : List ℝ, (∃ x ∈ xs, x ∉ S) → nll (xs.map fin) = .error .valueError

/-- C31: `est` is an admissible parameter, `nll` is finite there, and at every admissible parameter `nll` is a number
(or `+inf`) that is at least as large. -/
def IsMle {Θ : Type} (valid : Θ → Prop) (nll : Θ → M Num) (est : Θ) : Prop :=
  valid est ∧ ∃ a : ℝ, nll est = .ok (fin a) ∧ ∀ θ, valid θ → ∃ b : Num, nll θ = .ok b ∧ fin a ≤ b

/-- C31, where only the likelihood equations are proved: near `a`, `nll` is a differentiable real function of this
parameter (the others held fixed), with derivative 0 at `a`. -/
def IsStationary (nll : ℝ → M Num) (a : ℝ) : Prop :=
  ∃ L : ℝ → ℝ, (∀ᶠ t in nhds a, nll t = .ok (fin (L t))) ∧ HasDerivAt L 0 a

/-- Minus the sum of `logpdf` over the data, for distributions that offer no `nll`. -/
noncomputable def negLogLik (logpdf : Num → M Num) (xs : List Num) : M Num := do
  return -mp.fsum (← xs.mapM logpdf)

/-- The sample mean and the (biased) sample variance. -/
noncomputable def sampleMean (xs : List ℝ) : ℝ := xs.sum / xs.length
noncomputable def sampleVar (xs : List ℝ) : ℝ := (xs.map fun x => (x - sampleMean xs) ^ 2).sum / xs.length

/-- C32: a distribution with this mean and this variance reproduces the sample mean and the sample variance. -/
def MatchesMoments (xs : List ℝ) (mean var : M Num) : Prop :=
  mean = .ok (fin (sampleMean xs)) ∧ var = .ok (fin (sampleVar xs))

end Mpsci.Spec
