import Verif.Lemmas.Density
import Mathlib.Analysis.Calculus.MeanValue
import Mathlib.Order.Monotone.Union
import Mathlib.Analysis.Calculus.Deriv.MeanValue

/-! `IsDist F f`: `F` is a continuous distribution function with density `f`, and criteria for it by
shape of the support. -/

namespace Mpsci

open Classical Num Filter Topology MeasureTheory Set

/-- `F` is a continuous distribution function, `f` its density. -/
structure IsDist (F f : ℝ → ℝ) : Prop where
  mono : Monotone F
  cont : Continuous F
  nonneg : ∀ x, 0 ≤ F x
  le_one : ∀ x, F x ≤ 1
  lim0 : Tendsto F atBot (𝓝 0)
  lim1 : Tendsto F atTop (𝓝 1)
  f_nonneg : ∀ x, 0 ≤ f x
  integrable : Integrable f
  integral_Iic : ∀ x, ∫ t in Iic x, f t = F x
  integral_one : ∫ t, f t = 1

theorem isDist_of_mono {F f : ℝ → ℝ} {E : Set ℝ} (hE : E.Countable) (hF : Monotone F)
    (hc : Continuous F) (hd : ∀ x, x ∉ E → HasDerivAt F (f x) x) (hf : ∀ x, 0 ≤ f x)
    (h0 : Tendsto F atBot (𝓝 0)) (h1 : Tendsto F atTop (𝓝 1)) : IsDist F f := by
  obtain ⟨a, b, c⟩ := density_of_deriv hE hF hc hd hf h0 h1
  exact ⟨hF, hc, hF.le_of_tendsto h0, hF.ge_of_tendsto h1, h0, h1, hf, a, b, c⟩

/-- Support the whole line. -/
theorem isDist_univ {F f : ℝ → ℝ} (hd : ∀ x, HasDerivAt F (f x) x) (hf : ∀ x, 0 ≤ f x)
    (h0 : Tendsto F atBot (𝓝 0)) (h1 : Tendsto F atTop (𝓝 1)) : IsDist F f := by
  have hdiff : Differentiable ℝ F := fun x => (hd x).differentiableAt
  refine isDist_of_mono (E := ∅) countable_empty
    (monotone_of_deriv_nonneg hdiff fun x => ?_) hdiff.continuous (fun x _ => hd x) hf h0 h1
  rw [(hd x).deriv]; exact hf x

/-- Whole line with one exceptional point (a kink of the distribution function). -/
theorem isDist_kink {F f : ℝ → ℝ} {a : ℝ} (hc : Continuous F)
    (hd : ∀ x, x ≠ a → HasDerivAt F (f x) x) (hf : ∀ x, 0 ≤ f x)
    (h0 : Tendsto F atBot (𝓝 0)) (h1 : Tendsto F atTop (𝓝 1)) : IsDist F f := by
  have hmono : Monotone F := by
    refine MonotoneOn.Iic_union_Ici (a := a) ?_ ?_
    · refine monotoneOn_of_deriv_nonneg (convex_Iic a) hc.continuousOn ?_ ?_
      · intro x hx; rw [interior_Iic] at hx
        exact (hd x (ne_of_lt hx)).differentiableAt.differentiableWithinAt
      · intro x hx; rw [interior_Iic] at hx
        rw [(hd x (ne_of_lt hx)).deriv]; exact hf x
    · refine monotoneOn_of_deriv_nonneg (convex_Ici a) hc.continuousOn ?_ ?_
      · intro x hx; rw [interior_Ici] at hx
        exact (hd x (ne_of_gt hx)).differentiableAt.differentiableWithinAt
      · intro x hx; rw [interior_Ici] at hx
        rw [(hd x (ne_of_gt hx)).deriv]; exact hf x
  exact isDist_of_mono (E := {a}) (countable_singleton a) hmono hc
    (fun x hx => hd x (by simpa using hx)) hf h0 h1

/-- Support `[a, ∞)`: `F` agrees with `0` left of `a` and with `G` right of `a`. -/
theorem isDist_Ioi {F f G : ℝ → ℝ} {a : ℝ} (hl : ∀ x, x ≤ a → F x = 0)
    (hr : ∀ x, a < x → F x = G x) (hG0 : G a = 0) (hcG : ContinuousWithinAt G (Ici a) a)
    (hfl : ∀ x, x < a → f x = 0) (hfa : 0 ≤ f a)
    (hd : ∀ x, a < x → HasDerivAt G (f x) x) (hf : ∀ x, a < x → 0 ≤ f x)
    (h1 : Tendsto G atTop (𝓝 1)) : IsDist F f := by
  have hd' : ∀ x, x ≠ a → HasDerivAt F (f x) x := by
    intro x hx
    rcases lt_or_gt_of_ne hx with h | h
    · have : F =ᶠ[𝓝 x] fun _ => 0 := by
        filter_upwards [Iio_mem_nhds h] with y hy
        exact hl y (le_of_lt hy)
      rw [hfl x h]
      exact (hasDerivAt_const x (0:ℝ)).congr_of_eventuallyEq this
    · have : F =ᶠ[𝓝 x] G := by
        filter_upwards [Ioi_mem_nhds h] with y hy
        exact hr y hy
      exact (hd x h).congr_of_eventuallyEq this
  have hcont : Continuous F := by
    rw [continuous_iff_continuousAt]
    intro x
    by_cases hx : x = a
    · subst hx
      rw [continuousAt_iff_continuous_left_right]
      constructor
      · exact (continuousWithinAt_const (b := (0:ℝ))).congr (fun y hy => hl y hy) (hl _ le_rfl)
      · refine hcG.congr (fun y hy => ?_) (by rw [hl _ le_rfl, hG0])
        rcases eq_or_lt_of_le (show x ≤ y from hy) with h | h
        · rw [← h, hl _ le_rfl, hG0]
        · exact hr y h
    · exact (hd' x hx).continuousAt
  refine isDist_kink hcont hd' ?_ ?_ ?_
  · intro x
    rcases lt_trichotomy x a with h | h | h
    · rw [hfl x h]
    · rw [h]; exact hfa
    · exact hf x h
  · refine tendsto_const_nhds.congr' ?_
    filter_upwards [Iic_mem_atBot a] with y hy
    exact (hl y hy).symm
  · refine h1.congr' ?_
    filter_upwards [Ioi_mem_atTop a] with y hy
    exact (hr y hy).symm

/-- Support `(-∞, b]`: `F` agrees with `1` right of `b` and with `G` left of `b`. -/
theorem isDist_Iio {F f G : ℝ → ℝ} {b : ℝ} (hl : ∀ x, b ≤ x → F x = 1)
    (hr : ∀ x, x < b → F x = G x) (hG0 : G b = 1) (hcG : ContinuousWithinAt G (Iic b) b)
    (hfl : ∀ x, b < x → f x = 0) (hfb : 0 ≤ f b)
    (hd : ∀ x, x < b → HasDerivAt G (f x) x) (hf : ∀ x, x < b → 0 ≤ f x)
    (h0 : Tendsto G atBot (𝓝 0)) : IsDist F f := by
  have hd' : ∀ x, x ≠ b → HasDerivAt F (f x) x := by
    intro x hx
    rcases lt_or_gt_of_ne hx with h | h
    · have : F =ᶠ[𝓝 x] G := by
        filter_upwards [Iio_mem_nhds h] with y hy
        exact hr y hy
      exact (hd x h).congr_of_eventuallyEq this
    · have : F =ᶠ[𝓝 x] fun _ => 1 := by
        filter_upwards [Ioi_mem_nhds h] with y hy
        exact hl y (le_of_lt hy)
      rw [hfl x h]
      exact (hasDerivAt_const x (1:ℝ)).congr_of_eventuallyEq this
  have hcont : Continuous F := by
    rw [continuous_iff_continuousAt]
    intro x
    by_cases hx : x = b
    · subst hx
      rw [continuousAt_iff_continuous_left_right]
      constructor
      · refine hcG.congr (fun y hy => ?_) (by rw [hl _ le_rfl, hG0])
        rcases eq_or_lt_of_le (show y ≤ x from hy) with h | h
        · rw [h, hl _ le_rfl, hG0]
        · exact hr y h
      · exact (continuousWithinAt_const (b := (1:ℝ))).congr (fun y hy => hl y hy) (hl _ le_rfl)
    · exact (hd' x hx).continuousAt
  refine isDist_kink hcont hd' ?_ ?_ ?_
  · intro x
    rcases lt_trichotomy x b with h | h | h
    · exact hf x h
    · rw [h]; exact hfb
    · rw [hfl x h]
  · refine h0.congr' ?_
    filter_upwards [Iio_mem_atBot b] with y hy
    exact (hr y hy).symm
  · refine tendsto_const_nhds.congr' ?_
    filter_upwards [Ici_mem_atTop b] with y hy
    exact (hl y hy).symm

/-- Support `[a, b]`. -/
theorem isDist_Icc {F f G : ℝ → ℝ} {a b : ℝ} (hab : a < b) (hl : ∀ x, x ≤ a → F x = 0)
    (hu : ∀ x, b ≤ x → F x = 1) (hm : ∀ x, a < x → x < b → F x = G x)
    (hGa : G a = 0) (hGb : G b = 1) (hcG : ContinuousOn G (Icc a b))
    (hfl : ∀ x, x < a → f x = 0) (hfu : ∀ x, b < x → f x = 0) (hfa : 0 ≤ f a) (hfb : 0 ≤ f b)
    (hd : ∀ x, a < x → x < b → HasDerivAt G (f x) x)
    (hf : ∀ x, a < x → x < b → 0 ≤ f x) : IsDist F f := by
  have hFG : ∀ x ∈ Icc a b, F x = G x := by
    intro x hx
    rcases eq_or_lt_of_le hx.1 with h | h
    · rw [← h, hl _ le_rfl, hGa]
    · rcases eq_or_lt_of_le hx.2 with h' | h'
      · rw [h', hu _ le_rfl, hGb]
      · exact hm x h h'
  have hd' : ∀ x, x ≠ a → x ≠ b → HasDerivAt F (f x) x := by
    intro x hxa hxb
    rcases lt_or_gt_of_ne hxa with h | h
    · have : F =ᶠ[𝓝 x] fun _ => 0 := by
        filter_upwards [Iio_mem_nhds h] with y hy
        exact hl y (le_of_lt hy)
      rw [hfl x h]
      exact (hasDerivAt_const x (0:ℝ)).congr_of_eventuallyEq this
    · rcases lt_or_gt_of_ne hxb with h' | h'
      · have : F =ᶠ[𝓝 x] G := by
          filter_upwards [Ioo_mem_nhds h h'] with y hy
          exact hm y hy.1 hy.2
        exact (hd x h h').congr_of_eventuallyEq this
      · have : F =ᶠ[𝓝 x] fun _ => 1 := by
          filter_upwards [Ioi_mem_nhds h'] with y hy
          exact hu y (le_of_lt hy)
        rw [hfu x h']
        exact (hasDerivAt_const x (1:ℝ)).congr_of_eventuallyEq this
  have hcont : Continuous F := by
    have h1 : ContinuousOn F (Iic a) := continuousOn_const.congr (fun x hx => hl x hx)
    have h2 : ContinuousOn F (Icc a b) := hcG.congr hFG
    have h3 : ContinuousOn F (Ici b) := continuousOn_const.congr (fun x hx => hu x hx)
    have h12 : ContinuousOn F (Iic b) := by
      have := h1.union_of_isClosed h2 isClosed_Iic isClosed_Icc
      rwa [Iic_union_Icc_eq_Iic hab.le] at this
    have := h12.union_of_isClosed h3 isClosed_Iic isClosed_Ici
    rw [Iic_union_Ici] at this
    exact continuousOn_univ.1 this
  have hfnn : ∀ x, 0 ≤ f x := by
    intro x
    rcases lt_trichotomy x a with h | h | h
    · rw [hfl x h]
    · rw [h]; exact hfa
    · rcases lt_trichotomy x b with h' | h' | h'
      · exact hf x h h'
      · rw [h']; exact hfb
      · rw [hfu x h']
  have hmono : Monotone F := by
    have h1 : MonotoneOn F (Iic a) := fun x hx y hy _ => by rw [hl x hx, hl y hy]
    have h3 : MonotoneOn F (Ici b) := fun x hx y hy _ => by rw [hu x hx, hu y hy]
    have h2 : MonotoneOn F (Icc a b) := by
      refine monotoneOn_of_deriv_nonneg (convex_Icc a b) hcont.continuousOn ?_ ?_
      · intro x hx; rw [interior_Icc] at hx
        exact (hd' x hx.1.ne' hx.2.ne).differentiableAt.differentiableWithinAt
      · intro x hx; rw [interior_Icc] at hx
        rw [(hd' x hx.1.ne' hx.2.ne).deriv]; exact hfnn x
    have h23 : MonotoneOn F (Ici a) := by
      have := h2.union_right h3 (c := b) (isGreatest_Icc hab.le) isLeast_Ici
      rwa [Icc_union_Ici_eq_Ici hab.le] at this
    exact h1.Iic_union_Ici h23
  refine isDist_of_mono (E := {a, b}) (by simp) hmono hcont ?_ hfnn ?_ ?_
  · intro x hx
    simp only [mem_insert_iff, mem_singleton_iff, not_or] at hx
    exact hd' x hx.1 hx.2
  · refine tendsto_const_nhds.congr' ?_
    filter_upwards [Iic_mem_atBot a] with y hy
    exact (hl y hy).symm
  · refine tendsto_const_nhds.congr' ?_
    filter_upwards [Ici_mem_atTop b] with y hy
    exact (hu y hy).symm

/-- From an `IsDist` pair to the specification predicates. -/
theorem IsDist.isCdf {F f : ℝ → ℝ} (h : IsDist F f) {cdf : Num → M Num}
    (hc : Spec.RealFn cdf F) : Spec.IsCdf cdf :=
  ⟨F, hc, h.mono, h.cont, fun x => ⟨h.nonneg x, h.le_one x⟩, h.lim0, h.lim1⟩

theorem IsDist.isDensity {F f : ℝ → ℝ} (h : IsDist F f) {E S : Set ℝ} {pdf cdf : Num → M Num}
    (hp : Spec.RealFnOff E pdf f) (hc : Spec.RealFn cdf F) (hS : ∀ x, x ∉ S → f x = 0) :
    Spec.IsDensity E S pdf cdf :=
  ⟨f, F, hp, hc, h.f_nonneg, hS, h.integrable, h.integral_Iic, h.integral_one⟩

end Mpsci
