import Verif.Base.Num

/-! Specification vocabulary for data sets. -/

namespace Mpsci.Spec

/-- Usable weights for the data `x`: absent, or as many as there are data values, none negative and
not all zero. -/
def GoodWeights (x : List ℝ) (W : Option (List ℝ)) : Prop :=
  ∀ w, W = some w → w.length = x.length ∧ (∀ v ∈ w, 0 ≤ v) ∧ 0 < w.sum

/-- A list of reals as the list of mpmath numbers passed to the library. -/
noncomputable def nums (x : List ℝ) : List Num := x.map Num.fin

/-- Optional weights as passed to the library. -/
noncomputable def optNums (W : Option (List ℝ)) : Option (List Num) := W.map nums

/-- The data set in which the `i`-th value is repeated `c i` times. -/
def replicated {α : Type} (x : List α) (c : List ℕ) : List α :=
  (x.zip c).flatMap fun q => List.replicate q.2 q.1

/-- The weighted sum of `f` over the data (weight 1 everywhere when there are no weights). -/
noncomputable def wsum (x : List ℝ) (W : Option (List ℝ)) (f : ℝ → ℝ) : ℝ :=
  match W with
  | none => (x.map f).sum
  | some w => (List.zipWith (fun t v => v * f t) x w).sum

end Mpsci.Spec

namespace Mpsci.Spec

/-- Arithmetic mean. -/
noncomputable def average (g : List ℝ) : ℝ := g.sum / g.length

/-- Sum of squared deviations from `c`. -/
noncomputable def sumSq (c : ℝ) (g : List ℝ) : ℝ := (g.map fun t => (t - c) ^ 2).sum

/-- Within-group sum of squares: deviations from the group means. -/
noncomputable def within (gs : List (List ℝ)) : ℝ := (gs.map fun g => sumSq (average g) g).sum

/-- Between-group sum of squares: deviations of the group means from the grand mean, weighted by
group size. -/
noncomputable def between (gs : List (List ℝ)) : ℝ :=
  (gs.map fun g => (g.length : ℝ) * (average g - average gs.flatten) ^ 2).sum

end Mpsci.Spec

namespace Mpsci.Spec

/-- Sum over a data set of pairs of products of deviations from the means. -/
noncomputable def sxy (d : List (ℝ × ℝ)) : ℝ :=
  (d.map fun q => (q.1 - average (d.map Prod.fst)) * (q.2 - average (d.map Prod.snd))).sum

/-- Pearson's correlation coefficient of a list of pairs. -/
noncomputable def corr (d : List (ℝ × ℝ)) : ℝ :=
  sxy d / Real.sqrt (sumSq (average (d.map Prod.fst)) (d.map Prod.fst) *
    sumSq (average (d.map Prod.snd)) (d.map Prod.snd))

/-- A list with two different entries. -/
def Varies (x : List ℝ) : Prop := ∃ a ∈ x, ∃ b ∈ x, a ≠ b

end Mpsci.Spec
