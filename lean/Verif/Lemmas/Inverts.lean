import Verif.Spec.Moments
import Mathlib.MeasureTheory.Integral.IntegralEqImproper
import Mathlib.Analysis.SpecialFunctions.ExpDeriv
import Mathlib.Analysis.Calculus.MeanValue
import Mathlib.Analysis.Calculus.Deriv.MeanValue

namespace Mpsci

open Classical Num Spec Set MeasureTheory Filter Topology

/-- Inverses that are characterised rather than given by a formula. -/
theorem inverts_of_spec {S : Set ℝ} {f inv : Num → M Num} {F : ℝ → ℝ}
    (hf : ∀ x ∈ S, f (fin x) = .ok (fin (F x))) (hm : ∀ x ∈ S, 0 < F x ∧ F x < 1) (hinj : InjOn F S)
    (hs : ∀ p, 0 < p → p < 1 → ∃ x ∈ S, inv (fin p) = .ok (fin x) ∧ F x = p) : Inverts S f inv := by
  constructor
  · intro p h0 h1
    obtain ⟨x, hx, h, e⟩ := hs p h0 h1
    exact ⟨x, hx, h, by rw [hf x hx, e]⟩
  · intro x hx
    obtain ⟨y, hy, h, e⟩ := hs _ (hm x hx).1 (hm x hx).2
    exact ⟨F x, (hm x hx).1, (hm x hx).2, hf x hx, by rw [h, hinj hy hx e]⟩

/-- The integral of a function that is zero to the left of `a` and nonnegative to the right of it, by an
antiderivative. -/
theorem integral_Ioi_antideriv {g H : ℝ → ℝ} {a l : ℝ} (hz : ∀ x, x < a → g x = 0)
    (hc : ContinuousWithinAt H (Ici a) a) (hd : ∀ x, a < x → HasDerivAt H (g x) x)
    (hg : ∀ x, a < x → 0 ≤ g x) (hl : Tendsto H atTop (𝓝 l)) :
    Integrable g ∧ ∫ x, g x = l - H a := by
  have h1 := integrableOn_Ioi_deriv_of_nonneg hc (fun x hx => hd x hx) (fun x hx => hg x hx) hl
  have h2 := integral_Ioi_of_hasDerivAt_of_nonneg hc (fun x hx => hd x hx) (fun x hx => hg x hx) hl
  have e : (Ioi a).indicator g =ᵐ[volume] g := by
    have : ∀ᵐ x : ℝ, x ≠ a := by simp [ae_iff, measure_singleton]
    filter_upwards [this] with x hx
    by_cases h : x ∈ Ioi a
    · simp [h]
    · rw [indicator_of_notMem h, hz x (lt_of_le_of_ne (not_lt.1 h) hx)]
  refine ⟨((integrable_indicator_iff measurableSet_Ioi).2 h1).congr e, ?_⟩
  rw [← integral_congr_ae e, integral_indicator measurableSet_Ioi, h2]

/-- A function that increases up to `m` and decreases after it is largest at `m`. -/
theorem le_of_unimodal {h h' : ℝ → ℝ} {m : ℝ} (hd : ∀ x, HasDerivAt h (h' x) x) (hm : 0 ≤ m)
    (h1 : ∀ x, 0 ≤ x → x < m → 0 ≤ h' x) (h2 : ∀ x, m < x → h' x ≤ 0) {x : ℝ} (hx : 0 ≤ x) : h x ≤ h m := by
  have hc : Continuous h := continuous_iff_continuousAt.2 fun x => (hd x).continuousAt
  rcases le_total x m with hxm | hxm
  · have : MonotoneOn h (Icc 0 m) := by
      refine monotoneOn_of_deriv_nonneg (convex_Icc _ _) hc.continuousOn
        (fun x _ => (hd x).differentiableAt.differentiableWithinAt) fun y hy => ?_
      rw [interior_Icc] at hy
      rw [(hd y).deriv]; exact h1 y hy.1.le hy.2
    exact this ⟨hx, hxm⟩ ⟨hm, le_rfl⟩ hxm
  · have : AntitoneOn h (Ici m) := by
      refine antitoneOn_of_deriv_nonpos (convex_Ici _) hc.continuousOn
        (fun x _ => (hd x).differentiableAt.differentiableWithinAt) fun y hy => ?_
      rw [interior_Ici] at hy
      rw [(hd y).deriv]; exact h2 y hy
    exact this (mem_Ici.2 le_rfl) hxm hxm

end Mpsci
