import Verif.Lemmas.Dist.GenInvGauss
import Verif.Lemmas.Dist.InvGauss
import Verif.Spec.Moments

/-! Properties of `geninvgauss`. -/

namespace Mpsci.geninvgauss

open Classical Num Spec common Filter Topology Set gig

variable {p b loc s : ℝ}

theorem f_zero (hs : 0 < s) (x : ℝ) (hx : x ∉ Ioi loc) : f p b ((x - loc) / s) / s = 0 := by
  rw [f_nonpos ((affine_le_zero hs).2 (not_lt.1 hx)), zero_div]

/-- C01 -/
theorem complementary (hb : 0 < b) (hs : 0 < s) :
    Complementary (cdf · (fin p) (fin b) (fin loc) (fin s)) (sf · (fin p) (fin b) (fin loc) (fin s)) := complementary_of (cdf_eval hb hs) (sf_eval hb hs)

/-- C02 -/
theorem isCdf (hb : 0 < b) (hs : 0 < s) : IsCdf (cdf · (fin p) (fin b) (fin loc) (fin s)) := (isDist hb hs).isCdf (cdf_eval hb hs)

/-- C03: the Bessel function normalises the density, and `cdf` integrates it whichever side of the mode `x` lies on. -/
theorem isDensity (hb : 0 < b) (hs : 0 < s) :
    IsDensity ∅ (Ioi loc) (pdf · (fin p) (fin b) (fin loc) (fin s)) (cdf · (fin p) (fin b) (fin loc) (fin s)) :=
  (isDist hb hs).isDensity (fun x _ => pdf_eval hb hs x) (cdf_eval hb hs) (f_zero hs)

/-- C04, C42 -/
theorem isLogOf (hb : 0 < b) (hs : 0 < s) : IsLogOf ∅ (pdf · (fin p) (fin b) (fin loc) (fin s)) (logpdf · (fin p) (fin b) (fin loc) (fin s)) :=
  isLogOf_of (P := Ioi loc) (g := fun x => f p b ((x - loc) / s) / s)
    (fun _ _ hx => div_pos (f_pos hb ((affine_gt_zero hs).2 hx)) hs) (fun x _ hx => f_zero hs x hx)
    (fun x _ => pdf_eval hb hs x) (fun x _ hx => logpdf_pos hb hs hx)
    (fun x _ hx => by simp [logpdf, validate_ok hb hs, not_lt.1 (show ¬ loc < x from hx)])

/-- C07 -/
theorem validates (x : ℝ) :
    ValidatesExactly (0 < b ∧ 0 < s) (cdf (fin x) (fin p) (fin b) (fin loc) (fin s)) ∧
    ValidatesExactly (0 < b ∧ 0 < s) (sf (fin x) (fin p) (fin b) (fin loc) (fin s)) ∧
    ValidatesExactly (0 < b ∧ 0 < s) (pdf (fin x) (fin p) (fin b) (fin loc) (fin s)) ∧
    ValidatesExactly (0 < b ∧ 0 < s) (logpdf (fin x) (fin p) (fin b) (fin loc) (fin s)) ∧
    ValidatesExactly (0 < b ∧ 0 < s) (mode (fin p) (fin b) (fin loc) (fin s)) ∧
    ValidatesExactly (0 < b ∧ 0 < s) (mean (fin p) (fin b) (fin loc) (fin s)) ∧
    ValidatesExactly (0 < b ∧ 0 < s) (var (fin p) (fin b) (fin loc) (fin s)) ∧
    ValidatesExactly (0 < b ∧ 0 < s) (entropy (fin p) (fin b) (fin loc) (fin s)) := by
  refine ⟨⟨fun h => ⟨_, cdf_eval h.1 h.2 x⟩, fun h => ?_⟩, ⟨fun h => ⟨_, sf_eval h.1 h.2 x⟩, fun h => ?_⟩,
    ⟨fun h => ⟨_, pdf_eval h.1 h.2 x⟩, fun h => ?_⟩, ⟨fun h => ?_, fun h => ?_⟩,
    ⟨fun h => ⟨_, mode_eval h.1 h.2⟩, fun h => ?_⟩, ⟨fun h => ⟨_, mean_eval h.1 h.2⟩, fun h => ?_⟩,
    ⟨fun h => ⟨_, var_eval h.1 h.2⟩, fun h => ?_⟩, ⟨fun h => ⟨_, entropy_eval h.1 h.2⟩, fun h => ?_⟩⟩
  case refine_4 =>
    rcases le_or_gt x loc with hx | hx
    · exact ⟨ninf, by simp [logpdf, validate_ok h.1 h.2, hx]⟩
    · exact ⟨_, logpdf_pos h.1 h.2 hx⟩
  all_goals simp [cdf, sf, pdf, logpdf, mode, mean, var, entropy, validate_bad h]

/-- C07 -/
theorem validates_support (h : ¬ (0 < b ∧ 0 < s)) : support (fin p) (fin b) (fin loc) (fin s) = .error .valueError := by
  simp [support, validate_bad h]

/-- C08 -/
theorem locScale (hb : 0 < b) : LocScaleInvariant (fun x loc s => cdf x (fin p) (fin b) loc s) ∧
    LocScaleInvariant (fun x loc s => sf x (fin p) (fin b) loc s) ∧ LocScaleDensity (fun x loc s => pdf x (fin p) (fin b) loc s) :=
  ⟨locScale_of_std fun x _ _ hs => cdf_eval hb hs x,
   locScale_of_std (G := fun z => 1 - F p b z) fun x _ _ hs => sf_eval hb hs x,
   locScaleDensity_of_std fun x _ _ hs => pdf_eval hb hs x⟩

/-- C09 -/
theorem isMode (hb : 0 < b) (hs : 0 < s) :
    IsMode ∅ (pdf · (fin p) (fin b) (fin loc) (fin s)) (mode (fin p) (fin b) (fin loc) (fin s)) := by
  refine isMode_of (mode_eval hb hs) (fun x _ => pdf_eval hb hs x) (by simp) (fun y _ => ?_)
  rw [add_sub_cancel_left, mul_div_cancel_left₀ _ hs.ne']
  exact div_le_div_of_nonneg_right (f_le hb _) hs.le

/-- C12: with `p = -1/2` it is the inverse Gaussian distribution: `geninvgauss(-1/2, 1/m, loc, m*scale)` has the density of
`invgauss(m, loc, scale)`. -/
theorem pdf_invgauss {m : ℝ} (hm : 0 < m) (hs : 0 < s) (x : ℝ) :
    pdf (fin x) (fin (-1 / 2)) (fin (1 / m)) (fin loc) (fin (m * s)) = invgauss.pdf (fin x) (fin m) (fin loc) (fin s) := by
  have hb : 0 < 1 / m := by positivity
  rw [pdf_eval hb (mul_pos hm hs), invgauss.pdf_eval hm hs]
  rcases le_or_gt x loc with h | h
  · rw [f_nonpos ((affine_le_zero (mul_pos hm hs)).2 h), igD.f_nonpos ((affine_le_zero hs).2 h), zero_div, zero_div]
  · have hz : 0 < (x - loc) / (m * s) := (affine_gt_zero (mul_pos hm hs)).2 h
    have e := kI.ig_eq hb hz
    rw [show (1 / m)⁻¹ = m by simp, show m * ((x - loc) / (m * s)) = (x - loc) / s by field_simp] at e
    rw [e, f_of_pos hz, kI.K_neg_half hb, show Real.pi / (2 * (1 / m)) = (m / 2) ^ 2 * (2 * Real.pi) / m by field_simp, one_div, Real.sqrt_inv,
      Real.sqrt_div (by have := Real.pi_pos; positivity), Real.sqrt_mul (by positivity), Real.sqrt_sq (by positivity), Real.exp_neg]
    have h1 : √(2 * Real.pi) ≠ 0 := (Real.sqrt_pos.2 (by have := Real.pi_pos; positivity)).ne'
    have h2 : √m ≠ 0 := (Real.sqrt_pos.2 hm).ne'
    have h3 := (Real.exp_pos m⁻¹).ne'
    have h4 : √m ^ 2 = m := Real.sq_sqrt hm.le
    generalize √(2 * Real.pi) = q at *
    generalize kI.w m⁻¹ ((x - loc) / (m * s)) = ww
    generalize ((x - loc) / (m * s)) ^ (-1 / 2 - 1 : ℝ) = zz
    congr 2
    rw [← h4]
    generalize hr : √m = r at *
    have h5 : √(r ^ 2) ^ 2 = r ^ 2 := by rw [h4, hr, h4]
    generalize Real.exp _ = ee at *
    field_simp
    rw [h5]

/-- C37 -/
theorem isMean (hb : 0 < b) (hs : 0 < s) : IsMean ∅ (pdf · (fin p) (fin b) (fin loc) (fin s)) (mean (fin p) (fin b) (fin loc) (fin s)) :=
  ((hasMV hb).affine loc hs).isMean finite_empty (fun x _ => pdf_eval hb hs x) (mean_eval hb hs)

/-- C37 -/
theorem isVar (hb : 0 < b) (hs : 0 < s) : IsVar ∅ (pdf · (fin p) (fin b) (fin loc) (fin s)) (var (fin p) (fin b) (fin loc) (fin s)) :=
  ((hasMV hb).affine loc hs).isVar finite_empty (fun x _ => pdf_eval hb hs x) (var_eval hb hs)

/-- C37: the derivative of the Bessel function in its order that `entropy` takes is the expected logarithm. -/
theorem isEntropy (hb : 0 < b) (hs : 0 < s) : IsEntropy ∅ (pdf · (fin p) (fin b) (fin loc) (fin s)) (entropy (fin p) (fin b) (fin loc) (fin s)) :=
  ((hasEnt hb).affine loc hs (f_nonneg hb)).isEntropy finite_empty (fun x _ => pdf_eval hb hs x) (entropy_eval hb hs)

/-- C41 -/
theorem support_spec (hb : 0 < b) (hs : 0 < s) : support (fin p) (fin b) (fin loc) (fin s) = .ok (fin loc, pinf) := by
  simp [support, validate_ok hb hs]

/-- C48 -/
theorem atInfinities (hb : 0 < b) (hs : 0 < s) : AtInfinities (cdf · (fin p) (fin b) (fin loc) (fin s)) (sf · (fin p) (fin b) (fin loc) (fin s)) := by
  refine ⟨by simp [cdf, validate_ok hb hs], ?_, by simp [sf, validate_ok hb hs], ?_⟩
  · simp [cdf, validate_ok hb hs, mode_eval hb hs, cdfQuad, quad_pdf hb hs (mode_gt hb hs).le, quad_pdf_pinf hb hs, F_nonpos le_rfl]
  · simp [sf, validate_ok hb hs, mode_eval hb hs, mp.quad]

/-- Non-vacuity -/
example : pdf (fin 1) (fin (1 / 2)) (fin 2) (fin 0) (fin 1) = .ok (fin (1 / √Real.pi)) := by
  rw [pdf_eval two_pos one_pos, f_of_pos (by norm_num), kI.K_half two_pos, kI.w]
  have h1 : √Real.pi ≠ 0 := (Real.sqrt_pos.2 Real.pi_pos).ne'
  have h2 : √(Real.pi / (2 * 2)) = √Real.pi / 2 := by
    rw [Real.sqrt_div Real.pi_pos.le, show (2:ℝ) * 2 = 2 ^ 2 by norm_num, Real.sqrt_sq zero_le_two]
  rw [h2]
  norm_num
  have := (Real.exp_pos (-2)).ne'
  field_simp

end Mpsci.geninvgauss
