import Verif.Lemmas.Dist.GenHyperbolic
import Verif.Spec.Moments

/-! Properties of `genhyperbolic`, for `|b| < a`.  With `|b| = a` and `p < 0`, parameters that are accepted, `mean`, `cdf` and `sf` raise
`ZeroDivisionError` (`boundary` below). -/

namespace Mpsci.genhyperbolic

open Classical Num Spec common Filter Topology Set gh

variable {p a b loc s : ℝ}

/-- C01 -/
theorem complementary (h : |b| < a) (hs : 0 < s) : Complementary (cdf · (fin p) (fin a) (fin b) (fin loc) (fin s))
    (sf · (fin p) (fin a) (fin b) (fin loc) (fin s)) := complementary_of (cdf_eval h hs) (sf_eval h hs)

/-- C02 -/
theorem isCdf (h : |b| < a) (hs : 0 < s) : IsCdf (cdf · (fin p) (fin a) (fin b) (fin loc) (fin s)) := (isDist h hs).isCdf (cdf_eval h hs)

/-- C03: the Bessel functions normalise the density, and `cdf` integrates it whichever side of the mean `x` lies on. -/
theorem isDensity (h : |b| < a) (hs : 0 < s) :
    IsDensity ∅ univ (pdf · (fin p) (fin a) (fin b) (fin loc) (fin s)) (cdf · (fin p) (fin a) (fin b) (fin loc) (fin s)) :=
  (isDist h hs).isDensity (fun x _ => pdf_eval h hs x) (cdf_eval h hs) (fun x hx => absurd (mem_univ x) hx)

/-- C04, C42 -/
theorem isLogOf (h : |b| < a) (hs : 0 < s) :
    IsLogOf ∅ (pdf · (fin p) (fin a) (fin b) (fin loc) (fin s)) (logpdf · (fin p) (fin a) (fin b) (fin loc) (fin s)) :=
  isLogOf_of (P := univ) (g := fun x => f p a b ((x - loc) / s) / s) (fun _ _ _ => div_pos (f_pos h _) hs) (fun x _ hx => absurd (mem_univ x) hx)
    (fun x _ => pdf_eval h hs x) (fun x _ _ => logpdf_eval h hs x) (fun x _ hx => absurd (mem_univ x) hx)

/-- C03: the density in closed form -/
theorem pdf_closed (h : |b| < a) (hs : 0 < s) (x : ℝ) : pdf (fin x) (fin p) (fin a) (fin b) (fin loc) (fin s) =
    .ok (fin (√((a + b) * (a - b)) ^ p * Real.exp (b * ((x - loc) / s)) * besselKR (p - 1 / 2) (a * √(1 + ((x - loc) / s) ^ 2)) *
      (1 + ((x - loc) / s) ^ 2) ^ ((p - 1 / 2) / 2) / (√(2 * Real.pi) * a ^ (p - 1 / 2) * besselKR p √((a + b) * (a - b))) / s)) := pdf_eval h hs x

/-- C07: on invalid parameters every function raises ValueError -/
theorem validates_bad (x : ℝ) (h : ¬ ((|b| < a ∨ (0 < a ∧ |b| = a ∧ p < 0)) ∧ 0 < s)) :
    pdf (fin x) (fin p) (fin a) (fin b) (fin loc) (fin s) = .error .valueError ∧
    logpdf (fin x) (fin p) (fin a) (fin b) (fin loc) (fin s) = .error .valueError ∧
    cdf (fin x) (fin p) (fin a) (fin b) (fin loc) (fin s) = .error .valueError ∧
    sf (fin x) (fin p) (fin a) (fin b) (fin loc) (fin s) = .error .valueError ∧
    mean (fin p) (fin a) (fin b) (fin loc) (fin s) = .error .valueError ∧
    var (fin p) (fin a) (fin b) (fin loc) (fin s) = .error .valueError ∧
    support (fin p) (fin a) (fin b) (fin loc) (fin s) = .error .valueError := by
  simp [cdf, sf, pdf, logpdf, mean, var, support, validate_bad h]

/-- C07: for `|b| < a` nothing raises -/
theorem validates_ok (x : ℝ) (h : |b| < a) (hs : 0 < s) :
    (∃ r, pdf (fin x) (fin p) (fin a) (fin b) (fin loc) (fin s) = .ok r) ∧
    (∃ r, logpdf (fin x) (fin p) (fin a) (fin b) (fin loc) (fin s) = .ok r) ∧
    (∃ r, cdf (fin x) (fin p) (fin a) (fin b) (fin loc) (fin s) = .ok r) ∧
    (∃ r, sf (fin x) (fin p) (fin a) (fin b) (fin loc) (fin s) = .ok r) ∧
    (∃ r, mean (fin p) (fin a) (fin b) (fin loc) (fin s) = .ok r) ∧
    (∃ r, var (fin p) (fin a) (fin b) (fin loc) (fin s) = .ok r) :=
  ⟨⟨_, pdf_eval h hs x⟩, ⟨_, logpdf_eval h hs x⟩, ⟨_, cdf_eval h hs x⟩, ⟨_, sf_eval h hs x⟩, ⟨_, mean_eval h hs⟩, ⟨_, var_eval h hs⟩⟩

/-- C07 (finding): `|b| = a` with `p < 0` passes the validation, but `mean`, and with it `cdf` and `sf`, divide by zero. -/
theorem boundary (x : Num) (ha : 0 < a) (h : |b| = a) (hp : p < 0) (hs : 0 < s) :
    support (fin p) (fin a) (fin b) (fin loc) (fin s) = .ok (ninf, pinf) ∧
    mean (fin p) (fin a) (fin b) (fin loc) (fin s) = .error .zeroDivision ∧
    cdf x (fin p) (fin a) (fin b) (fin loc) (fin s) = .error .zeroDivision ∧
    sf x (fin p) (fin a) (fin b) (fin loc) (fin s) = .error .zeroDivision := by
  have hv := validate_le (loc := loc) (Or.inr ⟨ha, h, hp⟩ : |b| < a ∨ _) hs
  have h0 : (a + b) * (a - b) = 0 := by rw [← h]; nlinarith [abs_mul_abs_self b]
  have hm : mean (fin p) (fin a) (fin b) (fin loc) (fin s) = .error .zeroDivision := by
    simp [mean, hv, h0, mp.sqrt_nonneg le_rfl]
  exact ⟨by simp [support, hv], hm, by simp [cdf, hv, integratePdf, hm], by simp [sf, hv, integratePdf, hm]⟩

/-- C08 -/
theorem locScale (h : |b| < a) : LocScaleInvariant (fun x loc s => cdf x (fin p) (fin a) (fin b) loc s) ∧
    LocScaleInvariant (fun x loc s => sf x (fin p) (fin a) (fin b) loc s) ∧ LocScaleDensity (fun x loc s => pdf x (fin p) (fin a) (fin b) loc s) :=
  ⟨locScale_of_std fun x _ _ hs => cdf_eval h hs x,
   locScale_of_std (G := fun z => 1 - F p a b z) fun x _ _ hs => sf_eval h hs x,
   locScaleDensity_of_std fun x _ _ hs => pdf_eval h hs x⟩

theorem f_neg (p a b z : ℝ) : f p a b (-z) = f p a (-b) z := by
  simp only [f, d, neg_sq, neg_mul, mul_neg, sub_neg_eq_add, ← sub_eq_add_neg, mul_comm (a - b)]

/-- C11: changing the sign of `b` mirrors the distribution about `loc` -/
theorem mirror (h : |b| < a) (hs : 0 < s) (y : ℝ) :
    pdf (fin (loc - y)) (fin p) (fin a) (fin b) (fin loc) (fin s) = pdf (fin (loc + y)) (fin p) (fin a) (fin (-b)) (fin loc) (fin s) ∧
    cdf (fin (loc - y)) (fin p) (fin a) (fin b) (fin loc) (fin s) = sf (fin (loc + y)) (fin p) (fin a) (fin (-b)) (fin loc) (fin s) := by
  have h' : |-b| < a := by rwa [abs_neg]
  constructor
  · rw [pdf_eval h hs, pdf_eval h' hs, ← f_neg]; congr 4; ring
  · rw [cdf_eval h hs, sf_eval h' hs]
    congr 2
    rw [show (loc - y - loc) / s = -(y / s) by ring, show (loc + y - loc) / s = y / s by ring, ← (gh.isDist h').integral_Ioi, F,
      ← integral_comp_neg_Ioi]
    simp only [f_neg]

/-- C37 -/
theorem isMean (h : |b| < a) (hs : 0 < s) : IsMean ∅ (pdf · (fin p) (fin a) (fin b) (fin loc) (fin s)) (mean (fin p) (fin a) (fin b) (fin loc) (fin s)) :=
  ((hasMV h).affine loc hs).isMean finite_empty (fun x _ => pdf_eval h hs x) (mean_eval h hs)

/-- C37 -/
theorem isVar (h : |b| < a) (hs : 0 < s) : IsVar ∅ (pdf · (fin p) (fin a) (fin b) (fin loc) (fin s)) (var (fin p) (fin a) (fin b) (fin loc) (fin s)) :=
  ((hasMV h).affine loc hs).isVar finite_empty (fun x _ => pdf_eval h hs x) (var_eval h hs)

/-- C41 -/
theorem support_spec (h : |b| < a) (hs : 0 < s) : support (fin p) (fin a) (fin b) (fin loc) (fin s) = .ok (ninf, pinf) := by
  simp [support, validate_ok h hs]

/-- C48 -/
theorem atInfinities (h : |b| < a) (hs : 0 < s) : AtInfinities (cdf · (fin p) (fin a) (fin b) (fin loc) (fin s)) (sf · (fin p) (fin a) (fin b) (fin loc) (fin s)) := by
  refine ⟨?_, ?_, ?_, ?_⟩
  · simp [cdf, validate_ok h hs, integratePdf, mean_eval h hs, mp.quad]
  · simp [cdf, validate_ok h hs, integratePdf, mean_eval h hs, quad_pdf_ninf h hs, quad_pdf_pinf h hs]
  · simp [sf, validate_ok h hs, integratePdf, mean_eval h hs, quad_pdf_ninf h hs, quad_pdf_pinf h hs]
  · simp [sf, validate_ok h hs, integratePdf, mean_eval h hs, mp.quad]

/-- Non-vacuity: at `p = 1`, `a = 1`, `b = 0`, the Laplace-like density `exp(-√(1+z²))/(2 K_1(1))` -/
example : pdf (fin 0) (fin 1) (fin 1) (fin 0) (fin 0) (fin 1) = .ok (fin (Real.exp (-1) / (2 * besselKR 1 1))) := by
  rw [pdf_eval (by norm_num) one_pos, f, d]
  norm_num
  rw [show (1:ℝ) / 2 = 1 / 2 by norm_num, kI.K_half one_pos]
  have h1 : √(Real.pi / (2 * 1)) = √(2 * Real.pi) / 2 := by
    rw [show Real.pi / (2 * 1) = 2 * Real.pi / 2 ^ 2 by ring, Real.sqrt_div (by have := Real.pi_pos; positivity), Real.sqrt_sq zero_le_two]
  rw [h1]
  have h2 : √(2 * Real.pi) ≠ 0 := (Real.sqrt_pos.2 (by have := Real.pi_pos; positivity)).ne'
  have h3 := (kI.K_pos one_pos 1).ne'
  norm_num at *
  field_simp

end Mpsci.genhyperbolic
