import Verif.Base.Num
import Mathlib.Order.Monotone.Basic

/-! # Supports that are infinite sequences (C68) -/

namespace Mpsci.Spec

open Num

/-- The iterator `s` yields, in increasing order, exactly the integers at which `pmf` is positive. -/
def IsSupportSeq (pmf : ℤ → M Num) (s : M (ℕ → ℤ)) : Prop :=
  ∃ f, s = .ok f ∧ StrictMono f ∧ ∀ k, (∃ i, f i = k) ↔ ∃ v : ℝ, pmf k = .ok (fin v) ∧ 0 < v

end Mpsci.Spec
