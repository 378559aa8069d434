import Verif.Lemmas.Quantile

/-! Moments that do not exist. -/

namespace Mpsci

open MeasureTheory Num Spec Set

variable {F f : ℝ → ℝ}

theorem IsDist.shift_moment (hd : IsDist F f) {n : ℕ} {m : ℝ} (h : Integrable (fun x => (x - m) ^ n * f x)) (c : ℝ) :
    Integrable (fun x => (x - c) ^ n * f x) := by
  have i0 : Integrable f := hd.integrable
  refine Integrable.mono' ((h.norm.const_mul (2 ^ (n - 1))).add (i0.const_mul (2 ^ (n - 1) * |m - c| ^ n)))
    ((Measurable.aestronglyMeasurable (by fun_prop)).mul i0.aestronglyMeasurable) (Filter.Eventually.of_forall fun x => ?_)
  have hf := hd.f_nonneg x
  simp only [Pi.add_apply, norm_mul, Real.norm_eq_abs, abs_pow, abs_of_nonneg hf]
  have h1 : |x - c| ^ n ≤ 2 ^ (n - 1) * (|x - m| ^ n + |m - c| ^ n) := by
    refine le_trans (pow_le_pow_left₀ (abs_nonneg _) ?_ n) (add_pow_le (abs_nonneg (x - m)) (abs_nonneg (m - c)) n)
    rw [show x - c = (x - m) + (m - c) by ring]; exact abs_add_le _ _
  nlinarith [mul_le_mul_of_nonneg_right h1 hf]

theorem IsDist.quantile_moment (hd : IsDist F f) {Q : ℝ → ℝ} {n : ℕ} {m c s : ℝ} (hs : s ≠ 0)
    (hQ : ∀ p, 0 < p → p < 1 → F (c + s * Q p) = p) (h : Integrable (fun x => (x - m) ^ n * f x)) :
    IntegrableOn (fun p => Q p ^ n) (Ioo 0 1) := by
  have h1 := (hd.shift_moment h c).const_mul (s⁻¹ ^ n)
  have h2 := (hd.expect hQ (h := fun x => (s⁻¹ * (x - c)) ^ n) (Measurable.aestronglyMeasurable (by fun_prop))).1.2
    (h1.congr (Filter.Eventually.of_forall fun x => by simp only [mul_pow]; ring))
  refine h2.congr_fun (fun p _ => ?_) measurableSet_Ioo
  simp only [add_sub_cancel_left, inv_mul_cancel_left₀ hs]

variable {E : Set ℝ} {pdf : Num → M Num} {Q : ℝ → ℝ} {c s : ℝ}

theorem not_isMoment_aff (hs : s ≠ 0) (hf : RealFnOff E pdf f) (hd : IsDist F f)
    (hQ : ∀ p, 0 < p → p < 1 → F (c + s * Q p) = p) {n : ℕ} (hn : ¬ IntegrableOn (fun p => Q p ^ n) (Ioo 0 1)) :
    ¬ ∃ r, IsMoment E pdf n r := by
  rintro ⟨r, hE, g, m, hg, _, hi, _⟩
  refine hn (hd.quantile_moment (m := 0) hs hQ (hi.congr ?_))
  filter_upwards [ae_eq_of_off hE hg hf] with x hx
  rw [hx, sub_zero]

theorem not_isMean_aff (hs : s ≠ 0) (hf : RealFnOff E pdf f) (hd : IsDist F f)
    (hQ : ∀ p, 0 < p → p < 1 → F (c + s * Q p) = p) (hn : ¬ IntegrableOn (fun p => Q p ^ 1) (Ioo 0 1)) :
    ¬ ∃ r, IsMean E pdf r := by
  rintro ⟨r, hE, g, m, hg, _, hi, _⟩
  refine hn (hd.quantile_moment (m := 0) hs hQ (hi.congr ?_))
  filter_upwards [ae_eq_of_off hE hg hf] with x hx
  rw [hx, sub_zero, pow_one]

theorem not_isVar_aff (hs : s ≠ 0) (hf : RealFnOff E pdf f) (hd : IsDist F f)
    (hQ : ∀ p, 0 < p → p < 1 → F (c + s * Q p) = p) (hn : ¬ IntegrableOn (fun p => Q p ^ 2) (Ioo 0 1)) :
    ¬ ∃ r, IsVar E pdf r := by
  rintro ⟨r, hE, g, m, v, hg, _, _, _, hi, _⟩
  refine hn (hd.quantile_moment (m := m) hs hQ (hi.congr ?_))
  filter_upwards [ae_eq_of_off hE hg hf] with x hx
  rw [hx]

theorem not_isSkewness_aff (hs : s ≠ 0) (hf : RealFnOff E pdf f) (hd : IsDist F f)
    (hQ : ∀ p, 0 < p → p < 1 → F (c + s * Q p) = p) (hn : ¬ IntegrableOn (fun p => Q p ^ 3) (Ioo 0 1)) :
    ¬ ∃ r, IsSkewness E pdf r := by
  rintro ⟨r, hE, g, m, v, t, hg, _, _, _, _, hi, _⟩
  refine hn (hd.quantile_moment (m := m) hs hQ (hi.congr ?_))
  filter_upwards [ae_eq_of_off hE hg hf] with x hx
  rw [hx]

theorem not_isKurtosis_aff (hs : s ≠ 0) (hf : RealFnOff E pdf f) (hd : IsDist F f)
    (hQ : ∀ p, 0 < p → p < 1 → F (c + s * Q p) = p) (hn : ¬ IntegrableOn (fun p => Q p ^ 4) (Ioo 0 1)) :
    ¬ ∃ r, IsKurtosis E pdf r := by
  rintro ⟨r, hE, g, m, v, t, hg, _, _, _, _, hi, _⟩
  refine hn (hd.quantile_moment (m := m) hs hQ (hi.congr ?_))
  filter_upwards [ae_eq_of_off hE hg hf] with x hx
  rw [hx]

end Mpsci
