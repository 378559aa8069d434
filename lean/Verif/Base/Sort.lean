import Verif.Base.Mp
import Mathlib.Data.List.Sort

/-!
# `sorted`
-/

namespace Mpsci.py

open Classical Num

/-- `sorted(x)` (for lists without nan, where `<=` is a total order; the sort is stable). -/
noncomputable def sorted (x : List Num) : List Num := x.insertionSort (fun a b => a ≤ b)

theorem sorted_fin (xs : List ℝ) : sorted (xs.map fin) = (xs.insertionSort (fun a b => a ≤ b)).map fin := by
  unfold sorted
  rw [List.map_insertionSort (r := fun a b : ℝ => a ≤ b) (s := fun a b : Num => a ≤ b)]
  intro a _ b _
  simp

end Mpsci.py
