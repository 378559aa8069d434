import Verif.Model.Common.Search
import Verif.Props.Common.Bracket
import Verif.Spec.Search

/-! Bracket search on a bounded interval followed by bisection. -/

namespace Mpsci.common

open Classical Num Spec Set

variable {func : Num → M Num} {g : ℝ → ℝ} {u v x : ℝ} {findroot : (Num → M Num) → Num → Num → M Num}

theorem dom_fin (u v : ℝ) : dom (fin u) (fin v) = Icc u v := by ext t; simp [dom]

theorem bisect_of_bracket (hr : BisectFinder findroot) (hf : ∀ t ∈ Icc u v, func (fin t) = .ok (fin (g t)))
    (hc : ContinuousOn g (Icc u v)) (hinj : InjOn g (Icc u v)) (hx : x ∈ Icc u v) {nb : Option ℕ}
    (h : ∃ lo hi N, lo ∈ Icc u v ∧ hi ∈ Icc u v ∧ lo ≤ x ∧ x ≤ hi ∧ (g lo ≤ g x ∧ g x ≤ g hi ∨ g x ≤ g lo ∧ g hi ≤ g x) ∧
      ∀ fuel ≥ N, findBracket fuel func (fin (g x)) (fin u) (fin v) nb = .ok (fin lo, fin hi)) :
    Reaches (fun fuel => bracketRootAlways findroot fuel func (fin (g x)) (fin u) (fin v) nb) (fin x) := by
  obtain ⟨lo, hi, N, hlo, hhi, h0, h1, hs, h2⟩ := h
  have hsub : Icc lo hi ⊆ Icc u v := Icc_subset_Icc hlo.1 hhi.2
  obtain ⟨r, h3, h4, h5⟩ := hr (fun t => do return (← func t) - fin (g x)) (fun t => g t - g x) lo hi (h0.trans h1)
    (fun t ht => by simp only [hf t (hsub ht), ok_bind, fin_sub, pure_eq_ok]) ((hc.mono hsub).sub continuousOn_const)
    (by simpa only [sub_nonneg, sub_nonpos] using hs)
  rw [hinj (hsub h3) hx (sub_eq_zero.1 h5)] at h4
  refine ⟨N, fun fuel hn => ?_⟩
  simp only [bracketRootAlways, h2 fuel hn, ok_bind]
  exact h4

theorem bracketBisect_mono (hr : BisectFinder findroot) (huv : u < v) (hf : ∀ t ∈ Icc u v, func (fin t) = .ok (fin (g t)))
    (hc : ContinuousOn g (Icc u v)) (hg : StrictMonoOn g (Icc u v)) (hx : x ∈ Icc u v) (nb : Option ℕ) :
    Reaches (fun fuel => bracketRootAlways findroot fuel func (fin (g x)) (fin u) (fin v) nb) (fin x) := by
  have hu : u ∈ Icc u v := ⟨le_rfl, huv.le⟩
  have hv : v ∈ Icc u v := ⟨huv.le, le_rfl⟩
  obtain ⟨lo, hi, N, h1, h2, h3, h4, -, h5⟩ := findBracket_mono (a := fin u) (b := fin v) (g := g) (x := x) (by simpa using huv)
    (by rwa [dom_fin]) (hf u hu) (hf v hv) (by rwa [dom_fin]) (fun t ht => hg.monotoneOn hu (by rwa [dom_fin] at ht) (by rw [dom_fin] at ht; exact ht.1))
    (fun t ht => hg.monotoneOn (by rwa [dom_fin] at ht) hv (by rw [dom_fin] at ht; exact ht.2)) (by rwa [dom_fin]) rfl nb
  rw [dom_fin] at h1 h2
  exact bisect_of_bracket hr hf hc hg.injOn hx
    ⟨lo, hi, N, h1, h2, h3, h4, Or.inl ⟨hg.monotoneOn h1 hx h3, hg.monotoneOn hx h2 h4⟩, h5⟩

theorem bracketBisect_anti (hr : BisectFinder findroot) (huv : u < v) (hf : ∀ t ∈ Icc u v, func (fin t) = .ok (fin (g t)))
    (hc : ContinuousOn g (Icc u v)) (hg : StrictAntiOn g (Icc u v)) (hx : x ∈ Icc u v) (nb : Option ℕ) :
    Reaches (fun fuel => bracketRootAlways findroot fuel func (fin (g x)) (fin u) (fin v) nb) (fin x) := by
  have hu : u ∈ Icc u v := ⟨le_rfl, huv.le⟩
  have hv : v ∈ Icc u v := ⟨huv.le, le_rfl⟩
  obtain ⟨lo, hi, N, h1, h2, h3, h4, -, h5⟩ := findBracket_anti (a := fin u) (b := fin v) (g := g) (x := x) (by simpa using huv)
    (by rwa [dom_fin]) (hf u hu) (hf v hv) (by rwa [dom_fin]) (fun t ht => hg.antitoneOn hu (by rwa [dom_fin] at ht) (by rw [dom_fin] at ht; exact ht.1))
    (fun t ht => hg.antitoneOn (by rwa [dom_fin] at ht) hv (by rw [dom_fin] at ht; exact ht.2)) (by rwa [dom_fin]) rfl nb
  rw [dom_fin] at h1 h2
  exact bisect_of_bracket hr hf hc hg.injOn hx
    ⟨lo, hi, N, h1, h2, h3, h4, Or.inr ⟨hg.antitoneOn h1 hx h3, hg.antitoneOn hx h2 h4⟩, h5⟩

end Mpsci.common
