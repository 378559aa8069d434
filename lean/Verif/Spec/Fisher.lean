import Mathlib.Data.Finset.Sum
import Mathlib.Data.Fintype.Sum
import Mathlib.Data.Fintype.Powerset
import Mathlib.Data.Rat.Defs

/-!
# Specification of the conditional distribution of a 2×2 table

Given the margins of a 2×2 table (first row total `r0`, second row total `r1`, first column total
`c0`), the table is decided by which `c0` of the `r0 + r1` items are in the first column, all such
choices being equally likely; the upper left cell is the number of first-row items chosen.
-/

namespace Mpsci.Spec

open Classical

/-- The number of ways to choose `c0` of `r0 + r1` items so that the number of chosen items from
the first group satisfies `P`. -/
noncomputable def tableCount (r0 r1 c0 : ℕ) (P : ℕ → Prop) : ℕ :=
  (Finset.univ.filter fun T : Finset (Fin r0 ⊕ Fin r1) => T.card = c0 ∧ P T.toLeft.card).card

/-- The conditional probability, given the margins, that the upper left cell satisfies `P`. -/
noncomputable def tableProb (r0 r1 c0 : ℕ) (P : ℕ → Prop) : ℚ :=
  (tableCount r0 r1 c0 P : ℚ) / tableCount r0 r1 c0 fun _ => True

end Mpsci.Spec
