import Verif.Model.Dist.GenInvGauss
import Verif.Lemmas.BesselK
import Verif.Lemmas.Quantile
import Verif.Lemmas.Helpers
import Verif.Lemmas.Common
import Verif.Lemmas.DistTrans
import Verif.Lemmas.Stats.BoxcoxMle

namespace Mpsci

/-! ### The density of the generalised inverse Gaussian distribution -/

namespace gig

open Classical Set MeasureTheory kI

variable {p b : ℝ}

noncomputable def f (p b z : ℝ) : ℝ := if z ≤ 0 then 0 else z ^ (p - 1) * w b z / (2 * besselKR p b)
noncomputable def F (p b z : ℝ) : ℝ := ∫ t in Iic z, f p b t

theorem f_nonpos {z : ℝ} (h : z ≤ 0) : f p b z = 0 := if_pos h
theorem f_of_pos {z : ℝ} (h : 0 < z) : f p b z = z ^ (p - 1) * w b z / (2 * besselKR p b) := if_neg (not_le.2 h)
theorem f_pos (hb : 0 < b) {z : ℝ} (h : 0 < z) : 0 < f p b z := by
  rw [f_of_pos h]
  have := K_pos hb p
  have := w_pos b z
  positivity
theorem f_nonneg (hb : 0 < b) (z : ℝ) : 0 ≤ f p b z := by
  rcases le_or_gt z 0 with h | h
  · rw [f_nonpos h]
  · exact (f_pos hb h).le

/-- integrals against the density -/
theorem int_mul (hb : 0 < b) (c : ℝ) (n : ℕ) {g : ℝ → ℝ} (hg : ∀ z, 0 < z → g z * z ^ (p - 1) = z ^ (p + c - 1) * Real.log z ^ n) :
    Integrable (fun z => g z * f p b z) ∧ ∫ z, g z * f p b z = G b n (p + c) / (2 * besselKR p b) := by
  have h0 : ∀ z, z < 0 → g z * f p b z = 0 := fun z hz => by rw [f_nonpos hz.le, mul_zero]
  have e : ∀ z ∈ Ioi (0:ℝ), g z * f p b z = z ^ (p + c - 1) * (Real.log z ^ n * w b z) / (2 * besselKR p b) := fun z hz => by
    rw [f_of_pos hz, ← mul_div_assoc, ← mul_assoc, hg z hz, mul_assoc]
  refine ⟨integrable_of_Ioi h0 ?_, ?_⟩
  · exact (IntegrableOn.congr_fun ((G_integrable hb n (p + c)).div_const _) (fun z hz => (e z hz).symm) measurableSet_Ioi)
  · rw [integral_Ioi_of_zero h0, setIntegral_congr_fun measurableSet_Ioi e, integral_div, G]

theorem int_one (hb : 0 < b) : Integrable (f p b) ∧ ∫ z, f p b z = 1 := by
  obtain ⟨h1, h2⟩ := int_mul (p := p) hb 0 0 (g := fun _ => 1) (fun z _ => by simp)
  simp only [one_mul] at h1 h2
  refine ⟨h1, h2.trans ?_⟩
  rw [add_zero, G_zero, div_self]
  have := K_pos hb p; positivity

theorem isDist (hb : 0 < b) : IsDist (F p b) (f p b) := isDist_of_density (f_nonneg hb) (int_one hb).1 (int_one hb).2

theorem F_nonpos {z : ℝ} (h : z ≤ 0) : F p b z = 0 := by
  rw [F, setIntegral_congr_fun measurableSet_Iic (g := fun _ => (0:ℝ)) fun t ht => f_nonpos (le_trans ht h)]; simp

theorem mom (hb : 0 < b) (n : ℕ) : Integrable (fun z => z ^ n * f p b z) ∧ ∫ z, z ^ n * f p b z = besselKR (p + n) b / besselKR p b := by
  obtain ⟨h1, h2⟩ := int_mul (p := p) hb n 0 (g := fun z => z ^ n) (fun z hz => by
    rw [pow_zero, mul_one, ← Real.rpow_natCast, ← Real.rpow_add hz]; congr 1; ring)
  refine ⟨h1, h2.trans ?_⟩
  rw [G_zero]
  have := K_pos hb p; field_simp

theorem hasMV (hb : 0 < b) : HasMV (f p b) (besselKR (p + 1) b / besselKR p b)
    (besselKR (p + 2) b / besselKR p b - (besselKR (p + 1) b / besselKR p b) ^ 2) where
  int0 := (int_one hb).1
  one := (int_one hb).2
  int1 := by simpa using (mom (p := p) hb 1).1
  mean := by simpa using (mom (p := p) hb 1).2
  int2 := (mom hb 2).1
  second := by rw [(mom hb 2).2]; push_cast; ring

theorem log_f (hb : 0 < b) {z : ℝ} (h : 0 < z) :
    Real.log (f p b z) = (p - 1) * Real.log z - b * (z + 1 / z) / 2 - Real.log (2 * besselKR p b) := by
  have hk := K_pos hb p
  have hz := Real.rpow_pos_of_pos h (p - 1)
  rw [f_of_pos h, Real.log_div (mul_pos hz (w_pos _ _)).ne' (by positivity), Real.log_mul hz.ne' (w_pos _ _).ne', Real.log_rpow h, w, Real.log_exp]
  ring

theorem hasEnt (hb : 0 < b) : HasEnt (f p b) (Real.log (2 * besselKR p b) + -(p - 1) * (G b 1 p / 2) / besselKR p b +
    b / (2 * besselKR p b) * (besselKR (p + 1) b + besselKR (p - 1) b)) := by
  have hk := K_pos hb p
  obtain ⟨i0, v0⟩ := int_mul (p := p) hb 0 1 (g := Real.log) (fun z hz => by rw [add_zero, pow_one]; ring)
  obtain ⟨i1, v1⟩ := int_mul (p := p) hb 1 0 (g := fun z => z) (fun z hz => by
    rw [pow_zero, mul_one, show p + 1 - 1 = 1 + (p - 1) by ring, Real.rpow_add hz, Real.rpow_one])
  obtain ⟨i2, v2⟩ := int_mul (p := p) hb (-1) 0 (g := fun z => z⁻¹) (fun z hz => by
    rw [pow_zero, mul_one, show p + -1 - 1 = -1 + (p - 1) by ring, Real.rpow_add hz, Real.rpow_neg_one])
  obtain ⟨i3, v3⟩ := int_one (p := p) hb
  have e : (fun z => f p b z * Real.log (f p b z)) = fun z => (p - 1) * (Real.log z * f p b z) - b / 2 * (z * f p b z) - b / 2 * (z⁻¹ * f p b z)
      - Real.log (2 * besselKR p b) * f p b z := by
    funext z
    rcases le_or_gt z 0 with h | h
    · rw [f_nonpos h]; ring
    · rw [log_f hb h]; ring
  have j1 : Integrable (fun z => (p - 1) * (Real.log z * f p b z) - b / 2 * (z * f p b z)) := (i0.const_mul _).sub (i1.const_mul _)
  have j2 : Integrable (fun z => (p - 1) * (Real.log z * f p b z) - b / 2 * (z * f p b z) - b / 2 * (z⁻¹ * f p b z)) := j1.sub (i2.const_mul _)
  refine ⟨i3, v3, ?_, ?_⟩
  · rw [e]; exact j2.sub (i3.const_mul _)
  · rw [e, integral_sub j2 (i3.const_mul _), integral_sub j1 (i2.const_mul _), integral_sub (i0.const_mul _) (i1.const_mul _),
      integral_const_mul, integral_const_mul, integral_const_mul, integral_const_mul, v0, v1, v2, v3, G_zero, G_zero, add_zero, ← sub_eq_add_neg]
    field_simp; ring

noncomputable def mo (p b : ℝ) : ℝ := (p - 1 + √((p - 1) ^ 2 + b ^ 2)) / b

theorem mo_pos (hb : 0 < b) : 0 < mo p b := by
  refine div_pos ?_ hb
  have : |p - 1| < √((p - 1) ^ 2 + b ^ 2) := by
    rw [← Real.sqrt_sq_eq_abs]; exact Real.sqrt_lt_sqrt (sq_nonneg _) (by nlinarith)
  linarith [neg_abs_le (p - 1)]

theorem mo_eq (hb : 0 < b) : b / 2 * (mo p b - 1 / mo p b) = p - 1 := by
  have h := mo_pos (p := p) hb
  have hs : √((p - 1) ^ 2 + b ^ 2) ^ 2 = (p - 1) ^ 2 + b ^ 2 := Real.sq_sqrt (by positivity)
  have h2 : b * mo p b = p - 1 + √((p - 1) ^ 2 + b ^ 2) := by rw [mo]; field_simp
  have h3 : b * (mo p b) ^ 2 - b = 2 * (p - 1) * mo p b := by
    have h4 : √((p - 1) ^ 2 + b ^ 2) = b * mo p b - (p - 1) := by linarith
    rw [h4] at hs
    have : b * (b * mo p b ^ 2 - b) = b * (2 * (p - 1) * mo p b) := by linarith
    exact mul_left_cancel₀ hb.ne' this
  field_simp
  linarith

theorem f_le (hb : 0 < b) (z : ℝ) : f p b z ≤ f p b (mo p b) := by
  have hm := mo_pos (p := p) hb
  rcases le_or_gt z 0 with h | h
  · rw [f_nonpos h]; exact f_nonneg hb _
  rw [← Real.log_le_log_iff (f_pos hb h) (f_pos hb hm), log_f hb h, log_f hb hm]
  have h1 : Real.log (z / mo p b) ≤ z / mo p b - 1 := Real.log_le_sub_one_of_pos (by positivity)
  have h2 : Real.log (mo p b / z) ≤ mo p b / z - 1 := Real.log_le_sub_one_of_pos (by positivity)
  rw [Real.log_div h.ne' hm.ne'] at h1
  rw [Real.log_div hm.ne' h.ne'] at h2
  have e := mo_eq (p := p) hb
  generalize Real.log z = lz at *
  generalize Real.log (mo p b) = lm at *
  have h3 : mo p b * (lz - lm) ≤ z - mo p b := by
    have := mul_le_mul_of_nonneg_left h1 hm.le
    rwa [mul_sub (mo p b) (z / mo p b), mul_div_cancel₀ _ hm.ne', mul_one] at this
  have h4 : 1 / mo p b * (lm - lz) ≤ 1 / z - 1 / mo p b := by
    have := mul_le_mul_of_nonneg_left h2 (by positivity : 0 ≤ 1 / mo p b)
    have e2 : 1 / mo p b * (mo p b / z - 1) = 1 / z - 1 / mo p b := by field_simp
    rwa [e2] at this
  have h5 : b / 2 * (mo p b * (lz - lm) + 1 / mo p b * (lm - lz)) ≤ b / 2 * (z - mo p b + (1 / z - 1 / mo p b)) :=
    mul_le_mul_of_nonneg_left (by linarith) (by positivity)
  have h6 : (p - 1) * (lz - lm) = b / 2 * (mo p b * (lz - lm) + 1 / mo p b * (lm - lz)) := by rw [← e]; ring
  nlinarith

end gig

namespace geninvgauss

open Classical Num common Filter Topology Set MeasureTheory gig kI

variable {p b loc s : ℝ}

theorem validate_ok (hb : 0 < b) (hs : 0 < s) : validateParams (fin p) (fin b) (fin loc) (fin s) = .ok (fin p, fin b, fin loc, fin s) := by
  simp [validateParams, hb.not_ge, hs.not_ge]
theorem validate_bad (h : ¬ (0 < b ∧ 0 < s)) : validateParams (fin p) (fin b) (fin loc) (fin s) = .error .valueError := by
  by_cases hk : b ≤ 0
  · simp [validateParams, hk]
  have : s ≤ 0 := by
    by_contra hs; exact h ⟨not_le.1 hk, not_le.1 hs⟩
  simp [validateParams, hk, this]

theorem isDist (hb : 0 < b) (hs : 0 < s) : IsDist (fun x => F p b ((x - loc) / s)) (fun x => f p b ((x - loc) / s) / s) :=
  (gig.isDist hb).affine loc hs

theorem pdf_eval (hb : 0 < b) (hs : 0 < s) (x : ℝ) : pdf (fin x) (fin p) (fin b) (fin loc) (fin s) = .ok (fin (f p b ((x - loc) / s) / s)) := by
  rcases le_or_gt x loc with h | h
  · simp [pdf, validate_ok hb hs, h, f_nonpos ((affine_le_zero hs).2 h)]
  · have hz : 0 < (x - loc) / s := (affine_gt_zero hs).2 h
    have hk : 2 * besselKR p b ≠ 0 := by have := K_pos hb p; positivity
    simp only [pdf, validate_ok hb hs, ok_bind, fin_le, h.not_ge, if_false, fin_sub, fin_div _ hs.ne', one_def, ofNat_def, mp.power_pos hz,
      fin_div _ hz.ne', fin_add, neg_fin, fin_mul, fin_div _ (two_ne_zero (α := ℝ)), mp.exp_fin, mp.besselkR_pos p hb, fin_div _ hk, f_of_pos hz, w]

theorem logpdf_pos (hb : 0 < b) (hs : 0 < s) {x : ℝ} (h : loc < x) : logpdf (fin x) (fin p) (fin b) (fin loc) (fin s) =
    .ok (fin (Real.log (f p b ((x - loc) / s) / s))) := by
  have hz : 0 < (x - loc) / s := (affine_gt_zero hs).2 h
  have hk : 0 < 2 * besselKR p b := by have := K_pos hb p; positivity
  simp only [logpdf, validate_ok hb hs, ok_bind, fin_le, h.not_ge, if_false, fin_sub, fin_div _ hs.ne', one_def, ofNat_def, mp.log_pos hz,
      fin_div _ hz.ne', fin_add, fin_mul, fin_div _ (two_ne_zero (α := ℝ)), mp.besselkR_pos p hb, mp.log_pos hk, mp.log_pos hs, pure_eq_ok,
      Real.log_div (f_pos hb hz).ne' hs.ne', log_f hb hz]

theorem mode_eval (hb : 0 < b) (hs : 0 < s) : mode (fin p) (fin b) (fin loc) (fin s) = .ok (fin (loc + s * mo p b)) := by
  have h0 : 0 ≤ (p - 1) ^ 2 + b ^ 2 := by positivity
  simp only [mode, validate_ok hb hs, ok_bind, one_def, fin_sub, mp.ipow_fin, fin_add, mp.sqrt_nonneg h0, fin_mul, fin_div _ hb.ne', pure_eq_ok,
    mo, mul_div_assoc]

theorem mode_gt (hb : 0 < b) (hs : 0 < s) : loc < loc + s * mo p b := lt_add_of_pos_right _ (mul_pos hs (mo_pos hb))

theorem quad_pdf (hb : 0 < b) (hs : 0 < s) {x y : ℝ} (h : x ≤ y) : mp.quad (fun t => pdf t (fin p) (fin b) (fin loc) (fin s)) (fin x) (fin y) =
    .ok (fin (F p b ((y - loc) / s) - F p b ((x - loc) / s))) := by
  rw [mp.quad_fin h (fun t _ _ => pdf_eval hb hs t) (isDist hb hs).integrable.integrableOn, ← integral_Ioc_eq_integral_Ioo,
    (isDist hb hs).integral_Ioc h]

theorem quad_pdf_pinf (hb : 0 < b) (hs : 0 < s) (x : ℝ) : mp.quad (fun t => pdf t (fin p) (fin b) (fin loc) (fin s)) (fin x) pinf =
    .ok (fin (1 - F p b ((x - loc) / s))) := by
  rw [mp.quad_pinf (fun t _ => pdf_eval hb hs t) (isDist hb hs).integrable.integrableOn, (isDist hb hs).integral_Ioi]

theorem cdf_eval (hb : 0 < b) (hs : 0 < s) (x : ℝ) : cdf (fin x) (fin p) (fin b) (fin loc) (fin s) = .ok (fin (F p b ((x - loc) / s))) := by
  rcases le_or_gt x loc with h | h
  · simp [cdf, validate_ok hb hs, h, F_nonpos ((affine_le_zero hs).2 h)]
  · have h0 : F p b ((loc - loc) / s) = 0 := by rw [sub_self, zero_div, F_nonpos le_rfl]
    have hc : cdfQuad (fin x) (fin (loc + s * mo p b)) (fin p) (fin b) (fin loc) (fin s) = .ok (fin (F p b ((x - loc) / s))) := by
      rcases le_or_gt x (loc + s * mo p b) with h2 | h2
      · simp only [cdfQuad, fin_le, h2, if_true, quad_pdf hb hs h.le, h0, sub_zero]
      · simp only [cdfQuad, fin_le, h2.not_ge, if_false, quad_pdf hb hs (mode_gt hb hs).le, quad_pdf hb hs h2.le, h0, sub_zero, ok_bind, fin_add, pure_eq_ok,
          add_sub_cancel]
    have h1 := (gig.isDist (p := p) hb).le_one ((x - loc) / s)
    simp only [cdf, validate_ok hb hs, ok_bind, fin_le, h.not_ge, if_false, mode_eval hb hs, hc, one_def, fin_lt, h1.not_gt, pure_eq_ok]

theorem sf_eval (hb : 0 < b) (hs : 0 < s) (x : ℝ) : sf (fin x) (fin p) (fin b) (fin loc) (fin s) = .ok (fin (1 - F p b ((x - loc) / s))) := by
  rcases le_or_gt x loc with h | h
  · simp [sf, validate_ok hb hs, h, F_nonpos ((affine_le_zero hs).2 h)]
  · rcases le_or_gt (loc + s * mo p b) x with h2 | h2
    · simp only [sf, validate_ok hb hs, ok_bind, fin_le, h.not_ge, if_false, mode_eval hb hs, ge_iff, h2, if_true, quad_pdf_pinf hb hs]
    · simp only [sf, validate_ok hb hs, ok_bind, fin_le, h.not_ge, if_false, mode_eval hb hs, ge_iff, h2.not_ge, quad_pdf hb hs h2.le,
        quad_pdf_pinf hb hs, fin_add, pure_eq_ok]
      congr 2; ring

theorem mean_eval (hb : 0 < b) (hs : 0 < s) : mean (fin p) (fin b) (fin loc) (fin s) = .ok (fin (loc + s * (besselKR (p + 1) b / besselKR p b))) := by
  simp only [mean, validate_ok hb hs, ok_bind, one_def, fin_add, mp.besselkR_pos _ hb, fin_mul, fin_div _ (K_pos hb p).ne', pure_eq_ok, mul_div_assoc]

theorem var_eval (hb : 0 < b) (hs : 0 < s) : var (fin p) (fin b) (fin loc) (fin s) =
    .ok (fin (s ^ 2 * (besselKR (p + 2) b / besselKR p b - (besselKR (p + 1) b / besselKR p b) ^ 2))) := by
  simp only [var, validate_ok hb hs, ok_bind, one_def, ofNat_def, fin_add, mp.besselkR_pos _ hb, fin_mul, fin_div _ (K_pos hb p).ne', pure_eq_ok,
    mp.ipow_fin, fin_sub]

theorem nderiv_eval (hb : 0 < b) : besselkNderiv (fin p) (fin b) = .ok (fin (G b 1 p / 2)) :=
  mp.diff_eq (Eventually.of_forall fun t => mp.besselkR_pos t hb) (K_deriv hb p)

theorem entropy_eval (hb : 0 < b) (hs : 0 < s) : entropy (fin p) (fin b) (fin loc) (fin s) =
    .ok (fin (Real.log (2 * besselKR p b) + -(p - 1) * (G b 1 p / 2) / besselKR p b +
      b / (2 * besselKR p b) * (besselKR (p + 1) b + besselKR (p - 1) b) + Real.log s)) := by
  have hk := K_pos hb p
  have hk2 : 0 < 2 * besselKR p b := by positivity
  simp only [entropy, validate_ok hb hs, ok_bind, one_def, ofNat_def, fin_add, fin_sub, neg_fin, mp.besselkR_pos _ hb, fin_mul, fin_div _ hk.ne', pure_eq_ok,
    mp.log_pos hs, mp.log_pos hk2, nderiv_eval hb, fin_div _ hk2.ne']
  rw [show [fin (Real.log s), fin (Real.log (2 * besselKR p b)), fin (-(p - 1) * (G b 1 p / 2) / besselKR p b),
    fin (b / (2 * besselKR p b) * (besselKR (p + 1) b + besselKR (p - 1) b))] = [Real.log s, Real.log (2 * besselKR p b),
      -(p - 1) * (G b 1 p / 2) / besselKR p b, b / (2 * besselKR p b) * (besselKR (p + 1) b + besselKR (p - 1) b)].map fin from rfl, mp.fsum_fin]
  congr 2
  simp only [List.sum_cons, List.sum_nil]; ring

end geninvgauss

end Mpsci
