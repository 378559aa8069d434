import Verif.Base.Num
import Mathlib.Topology.Instances.Real.Lemmas
import Mathlib.Topology.Algebra.InfiniteSum.Real

/-! Infinite sums: `mp.nsum`. -/

namespace Mpsci

open Classical Num Filter Topology

/-- `mp.nsum(t, [start, inf])`: the limit of the partial sums if every term is a finite real number and the limit exists
(whatever the extrapolation method, this is what the function estimates); otherwise not modelled. -/
noncomputable def mp.nsum (t : ℕ → M Num) (start : ℕ) : M Num :=
  if h : ∃ S : ℝ, ∃ u : ℕ → ℝ, (∀ i, t (start + i) = .ok (fin (u i))) ∧ Tendsto (fun N => ∑ i ∈ Finset.range N, u i) atTop (𝓝 S) then
    .ok (fin h.choose)
  else .error .notModelled

theorem mp.nsum_eq {t : ℕ → M Num} {start : ℕ} {u : ℕ → ℝ} {S : ℝ} (ht : ∀ i, t (start + i) = .ok (fin (u i)))
    (hS : Tendsto (fun N => ∑ i ∈ Finset.range N, u i) atTop (𝓝 S)) : mp.nsum t start = .ok (fin S) := by
  have h : ∃ S : ℝ, ∃ u : ℕ → ℝ, (∀ i, t (start + i) = .ok (fin (u i))) ∧ Tendsto (fun N => ∑ i ∈ Finset.range N, u i) atTop (𝓝 S) := ⟨S, u, ht, hS⟩
  rw [mp.nsum, dif_pos h]
  obtain ⟨u', h1, h2⟩ := h.choose_spec
  have : u' = u := by
    funext i
    have := (h1 i).symm.trans (ht i)
    injection this with this; injection this
  rw [this] at h2
  rw [tendsto_nhds_unique h2 hS]

end Mpsci
