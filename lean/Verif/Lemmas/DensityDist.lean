import Verif.Lemmas.Dist
import Verif.Lemmas.Moments
import Mathlib.MeasureTheory.Integral.IntegralEqImproper
import Mathlib.MeasureTheory.Integral.DominatedConvergence

/-! A normalised nonnegative function is a density. -/

namespace Mpsci

open Classical Num Filter Topology MeasureTheory Set

theorem isDist_of_density {f : ℝ → ℝ} (h0 : ∀ x, 0 ≤ f x) (hi : Integrable f) (h1 : ∫ x, f x = 1) :
    IsDist (fun x => ∫ t in Iic x, f t) f := by
  have e : ∀ x, ∫ t in Iic x, f t = (∫ t in Iic 0, f t) + ∫ t in (0:ℝ)..x, f t := fun x => by
    rw [intervalIntegral.integral_Iic_sub_Iic hi.integrableOn hi.integrableOn |>.symm]; ring
  have hmono : Monotone (fun x => ∫ t in Iic x, f t) := fun x y hxy =>
    setIntegral_mono_set hi.integrableOn (Eventually.of_forall h0) (HasSubset.Subset.eventuallyLE (Iic_subset_Iic.2 hxy))
  have ht : Tendsto (fun x => ∫ t in Iic x, f t) atTop (𝓝 1) := by
    rw [← h1]
    have := (aecover_Iic tendsto_id : AECover (volume : Measure ℝ) atTop fun x : ℝ => Iic x)
    exact this.integral_tendsto_of_countably_generated hi
  have hb : Tendsto (fun x => ∫ t in Iic x, f t) atBot (𝓝 0) := by
    have h2 := (aecover_Ioi tendsto_id : AECover (volume : Measure ℝ) atBot fun x : ℝ => Ioi x).integral_tendsto_of_countably_generated hi
    have h3 : Tendsto (fun x => (∫ t, f t) - ∫ t in Ioi x, f t) atBot (𝓝 ((∫ t, f t) - ∫ t, f t)) := tendsto_const_nhds.sub h2
    rw [sub_self] at h3
    refine h3.congr fun x => ?_
    have := integral_add_compl (measurableSet_Iic (a := x)) hi
    rw [compl_Iic] at this; linarith
  refine ⟨hmono, ?_, hmono.le_of_tendsto hb, hmono.ge_of_tendsto ht, hb, ht, h0, hi, fun x => rfl, h1⟩
  rw [show (fun x => ∫ t in Iic x, f t) = fun x => (∫ t in Iic 0, f t) + ∫ t in (0:ℝ)..x, f t from funext e]
  exact continuous_const.add (intervalIntegral.continuous_primitive (fun a b => hi.intervalIntegrable) 0)

theorem IsDist.integral_Ioi {F f : ℝ → ℝ} (h : IsDist F f) (x : ℝ) : ∫ t in Ioi x, f t = 1 - F x := by
  have := integral_add_compl (measurableSet_Iic (a := x)) h.integrable
  rw [compl_Iic, h.integral_Iic, h.integral_one] at this; linarith

theorem IsDist.integral_Ioc {F f : ℝ → ℝ} (h : IsDist F f) {x y : ℝ} (hxy : x ≤ y) : ∫ t in Ioc x y, f t = F y - F x := by
  rw [← intervalIntegral.integral_of_le hxy, ← intervalIntegral.integral_Iic_sub_Iic h.integrable.integrableOn h.integrable.integrableOn,
    h.integral_Iic, h.integral_Iic]

end Mpsci
