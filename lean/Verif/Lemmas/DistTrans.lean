import Verif.Lemmas.Dist
import Mathlib.MeasureTheory.Measure.Haar.NormedSpace
import Mathlib.MeasureTheory.Group.Integral
import Mathlib.MeasureTheory.Measure.Lebesgue.Integral

/-! Affine change of variable and reflection of an `IsDist` pair. -/

namespace Mpsci

open Classical Num Filter Topology MeasureTheory Set

theorem tendsto_affine_atTop (loc : ℝ) {s : ℝ} (hs : 0 < s) :
    Tendsto (fun x : ℝ => (x - loc) / s) atTop atTop := by
  refine Tendsto.atTop_div_const hs ?_
  exact tendsto_atTop_add_const_right _ (-loc) tendsto_id

theorem tendsto_affine_atBot (loc : ℝ) {s : ℝ} (hs : 0 < s) :
    Tendsto (fun x : ℝ => (x - loc) / s) atBot atBot := by
  refine Tendsto.atBot_div_const hs ?_
  exact tendsto_atBot_add_const_right _ (-loc) tendsto_id

theorem integral_affine (g : ℝ → ℝ) (loc : ℝ) {s : ℝ} (hs : 0 < s) :
    ∫ t, g ((t - loc) / s) / s = ∫ t, g t := by
  rw [integral_sub_right_eq_self (fun t => g (t / s) / s) loc, integral_div,
    Measure.integral_comp_div, abs_of_pos hs, smul_eq_mul, mul_div_cancel_left₀ _ hs.ne']

theorem integrable_affine {g : ℝ → ℝ} (hg : Integrable g) (loc : ℝ) {s : ℝ} (hs : 0 < s) :
    Integrable (fun t => g ((t - loc) / s) / s) :=
  ((hg.comp_div hs.ne').comp_sub_right loc).div_const s

theorem IsDist.affine {F f : ℝ → ℝ} (h : IsDist F f) (loc : ℝ) {s : ℝ} (hs : 0 < s) :
    IsDist (fun x => F ((x - loc) / s)) (fun x => f ((x - loc) / s) / s) where
  mono := fun x y hxy => h.mono (by gcongr)
  cont := h.cont.comp (by fun_prop)
  nonneg := fun x => h.nonneg _
  le_one := fun x => h.le_one _
  lim0 := h.lim0.comp (tendsto_affine_atBot loc hs)
  lim1 := h.lim1.comp (tendsto_affine_atTop loc hs)
  f_nonneg := fun x => div_nonneg (h.f_nonneg _) hs.le
  integrable := integrable_affine h.integrable loc hs
  integral_Iic := by
    intro x
    rw [← h.integral_Iic, ← integral_indicator measurableSet_Iic,
      ← integral_indicator measurableSet_Iic,
      ← integral_affine ((Iic ((x - loc) / s)).indicator f) loc hs]
    congr 1
    ext t
    by_cases ht : t ≤ x
    · have : (t - loc) / s ≤ (x - loc) / s := by gcongr
      simp [indicator, ht, this]
    · have : ¬ (t - loc) / s ≤ (x - loc) / s := by
        rw [div_le_div_iff_of_pos_right hs]; linarith
      simp [indicator, ht, this]
  integral_one := by
    rw [integral_affine f loc hs]; exact h.integral_one

theorem IsDist.reflect {F f : ℝ → ℝ} (h : IsDist F f) :
    IsDist (fun x => 1 - F (-x)) (fun x => f (-x)) where
  mono := fun x y hxy => by have := h.mono (neg_le_neg hxy); simp only; linarith
  cont := continuous_const.sub (h.cont.comp continuous_neg)
  nonneg := fun x => by linarith [h.le_one (-x)]
  le_one := fun x => by linarith [h.nonneg (-x)]
  lim0 := by
    have := (h.lim1.comp tendsto_neg_atBot_atTop)
    simpa using (tendsto_const_nhds (x := (1:ℝ))).sub this
  lim1 := by
    have := (h.lim0.comp tendsto_neg_atTop_atBot)
    simpa using (tendsto_const_nhds (x := (1:ℝ))).sub this
  f_nonneg := fun x => h.f_nonneg _
  integrable := h.integrable.comp_neg
  integral_Iic := by
    intro x
    rw [integral_comp_neg_Iic, ← h.integral_Iic (-x), ← h.integral_one,
      ← intervalIntegral.integral_Iic_add_Ioi (h.integrable.integrableOn) h.integrable.integrableOn
        (b := -x)]
    ring
  integral_one := by
    rw [integral_neg_eq_self f]; exact h.integral_one

end Mpsci
