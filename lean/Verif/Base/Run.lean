import Verif.Base.Loop

/-! The value of a call that runs `while` loops. -/

namespace Mpsci

open Classical

/-- `call fuel` is a call whose loops are cut off (with `Err.diverges`) after `fuel` rounds. `run call` is the call
itself: what `call fuel` is for every large enough `fuel`. -/
noncomputable def run {α : Type} (call : ℕ → M α) : M α :=
  if h : ∃ r, ∃ N, ∀ fuel ≥ N, call fuel = r then h.choose else .error .diverges

theorem run_of {α : Type} {call : ℕ → M α} {r : M α} {N : ℕ} (h : ∀ fuel ≥ N, call fuel = r) : run call = r := by
  have hx : ∃ r, ∃ N, ∀ fuel ≥ N, call fuel = r := ⟨r, N, h⟩
  rw [run, dif_pos hx]
  obtain ⟨N', h'⟩ := hx.choose_spec
  rw [← h' (max N N') (le_max_right _ _), h (max N N') (le_max_left _ _)]

end Mpsci
