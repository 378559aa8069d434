import Verif.Spec
import Mathlib.MeasureTheory.Integral.IntervalIntegral.DerivIntegrable
import Mathlib.MeasureTheory.Integral.DivergenceTheorem
import Mathlib.MeasureTheory.Integral.IntegralEqImproper

/-! Generic lemmas: a monotone antiderivative gives the density property. -/

namespace Mpsci

open Classical Num Filter Topology MeasureTheory Set

theorem density_aux {F f : ℝ → ℝ} {E : Set ℝ} (hE : E.Countable) (hF : Monotone F)
    (hc : Continuous F) (hd : ∀ x, x ∉ E → HasDerivAt F (f x) x) :
    ∀ a b : ℝ, IntervalIntegrable f volume a b ∧ ∫ t in a..b, f t = F b - F a := by
  intro a b
  have hae : ∀ᵐ x : ℝ, x ∉ E := by
    have := hE.measure_zero (volume : Measure ℝ)
    exact measure_eq_zero_iff_ae_notMem.1 this
  have h1 : IntervalIntegrable (deriv F) volume a b :=
    (hF.monotoneOn _).intervalIntegrable_deriv
  have h2 : IntervalIntegrable f volume a b := by
    refine h1.congr_ae ?_
    refine ae_restrict_of_ae ?_
    filter_upwards [hae] with x hx
    exact (hd x hx).deriv
  exact ⟨h2, integral_eq_of_hasDerivAt_off_countable F f hE hc.continuousOn
    (fun x hx => hd x hx.2) h2⟩

/-- A nonnegative function which is the derivative, off a countable set, of a continuous
nondecreasing function with limits 0 and 1 is a probability density with that function as its
distribution function. -/
theorem density_of_deriv {F f : ℝ → ℝ} {E : Set ℝ} (hE : E.Countable) (hF : Monotone F)
    (hc : Continuous F) (hd : ∀ x, x ∉ E → HasDerivAt F (f x) x) (hf : ∀ x, 0 ≤ f x)
    (h0 : Tendsto F atBot (𝓝 0)) (h1 : Tendsto F atTop (𝓝 1)) :
    Integrable f ∧ (∀ x, ∫ t in Iic x, f t = F x) ∧ ∫ t, f t = 1 := by
  have key := density_aux hE hF hc hd
  have hIic : ∀ x, IntegrableOn f (Iic x) := by
    intro x
    refine integrableOn_Iic_of_intervalIntegral_norm_tendsto (l := atBot) (a := id) (F x) x ?_ tendsto_id ?_
    · intro i
      by_cases hix : i ≤ x
      · exact (intervalIntegrable_iff_integrableOn_Ioc_of_le hix).1 (key i x).1
      · simp [Ioc_eq_empty_of_le (not_le.1 hix).le]
    · have : (fun i => ∫ t in i..x, ‖f t‖) = fun i => F x - F i := by
        ext i
        simp only [Real.norm_of_nonneg (hf _)]
        exact (key i x).2
      simp only [id]
      rw [this]
      simpa using (tendsto_const_nhds (x := F x)).sub h0
  have hval : ∀ x, ∫ t in Iic x, f t = F x := by
    intro x
    have := intervalIntegral_tendsto_integral_Iic (f := f) x (hIic x) (tendsto_id (α := ℝ) (x := atBot))
    refine tendsto_nhds_unique this ?_
    have h : (fun i => ∫ t in id i..x, f t) = fun i => F x - F i := by
      ext i; exact (key i x).2
    rw [h]
    simpa using (tendsto_const_nhds (x := F x)).sub h0
  have hint : Integrable f := by
    refine integrable_of_intervalIntegral_norm_tendsto (l := atTop) (a := fun i : ℝ => -i)
      (b := id) (1 : ℝ) ?_ tendsto_neg_atTop_atBot tendsto_id ?_
    · intro i
      exact (hIic i).mono_set (fun t ht => ht.2)
    · have : (fun i : ℝ => ∫ t in (-i)..(id i), ‖f t‖) = fun i => F i - F (-i) := by
        ext i
        simp only [Real.norm_of_nonneg (hf _)]
        exact (key (-i) i).2
      rw [this]
      simpa using h1.sub (h0.comp tendsto_neg_atTop_atBot)
  refine ⟨hint, hval, ?_⟩
  have := intervalIntegral_tendsto_integral hint (l := atTop) (a := fun i : ℝ => -i)
    (b := id) tendsto_neg_atTop_atBot tendsto_id
  refine tendsto_nhds_unique this ?_
  have h : (fun i : ℝ => ∫ t in (-i)..(id i), f t) = fun i => F i - F (-i) := by
    ext i; exact (key (-i) i).2
  rw [h]
  simpa using h1.sub (h0.comp tendsto_neg_atTop_atBot)

end Mpsci
