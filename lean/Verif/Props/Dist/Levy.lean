import Verif.Lemmas.Dist.Levy

/-! Properties of `levy`. -/

namespace Mpsci.levy

open Classical Num Spec common Filter Topology Set invgammaD

variable {mu s : ℝ}

/-- C01 -/
theorem complementary (hs : 0 < s) : Complementary (cdf · (fin mu) (fin s)) (sf · (fin mu) (fin s)) :=
  complementary_of (cdf_eval hs) (sf_eval hs)

/-- C02 -/
theorem isCdf (hs : 0 < s) : IsCdf (cdf · (fin mu) (fin s)) := (isDist hs).isCdf (cdf_eval hs)

/-- C03 -/
theorem isDensity (hs : 0 < s) : IsDensity ∅ (Ioi mu) (pdf · (fin mu) (fin s)) (cdf · (fin mu) (fin s)) :=
  (isDist hs).isDensity (fun x _ => pdf_eval hs x) (cdf_eval hs) (f_zero hs)

/-- C04, C42 -/
theorem isLogOf (hs : 0 < s) : IsLogOf ∅ (pdf · (fin mu) (fin s)) (logpdf · (fin mu) (fin s)) :=
  isLogOf_of (P := Ioi mu) (g := fun x => f (1 / 2) ((x - mu) / (s / 2)) / (s / 2)) (fun _ _ hx => f_pos hs hx) (fun x _ hx => f_zero hs x hx)
    (fun x _ => pdf_eval hs x) (fun x _ hx => logpdf_pos hs hx) (fun x _ hx => logpdf_low hs (not_lt.1 hx))

/-- C05 -/
theorem inverts_cdf (hs : 0 < s) : Inverts (Ioi mu) (cdf · (fin mu) (fin s)) (invcdf · (fin mu) (fin s)) := by
  have := inverts_affine (S := Ioi 0) (f := (cdf · (fin mu) (fin s))) (inv := (invcdf · (fin mu) (fin s))) (F := F (1 / 2)) (Q := Q (1 / 2)) (half_pos hs) (fun x _ => cdf_eval hs x)
    (fun p h0 h1 => invcdf_eval hs h0 h1) (fun p h0 h1 => ⟨Q_pos p, invgammaD.F_Q one_half_pos p h0 h1⟩)
    (fun z hz => ⟨(F_mem one_half_pos hz).1, (F_mem one_half_pos hz).2, Q_F hz⟩)
  rwa [preimage_affine_Ioi (half_pos hs), mul_zero, add_zero] at this

/-- C05 -/
theorem inverts_sf (hs : 0 < s) : Inverts (Ioi mu) (sf · (fin mu) (fin s)) (invsf · (fin mu) (fin s)) := by
  have := inverts_affine_compl (S := Ioi 0) (f := (sf · (fin mu) (fin s))) (inv := (invsf · (fin mu) (fin s))) (F := F (1 / 2)) (Q := Q (1 / 2)) (half_pos hs) (fun x _ => sf_eval hs x)
    (fun p h0 h1 => invsf_eval hs h0 h1) (fun p h0 h1 => ⟨Q_pos p, invgammaD.F_Q one_half_pos p h0 h1⟩)
    (fun z hz => ⟨(F_mem one_half_pos hz).1, (F_mem one_half_pos hz).2, Q_F hz⟩)
  rwa [preimage_affine_Ioi (half_pos hs), mul_zero, add_zero] at this

/-- C06 -/
theorem rejects_p : RejectsBadP (invcdf · (fin mu) (fin s)) ∧ RejectsBadP (invsf · (fin mu) (fin s)) := by
  constructor <;> intro p hp <;> simp [invcdf, invsf, validateP_bad hp]

/-- C07 -/
theorem validates (x : ℝ) :
    ValidatesExactly (0 < s) (cdf (fin x) (fin mu) (fin s)) ∧ ValidatesExactly (0 < s) (sf (fin x) (fin mu) (fin s)) ∧
    ValidatesExactly (0 < s) (pdf (fin x) (fin mu) (fin s)) ∧ ValidatesExactly (0 < s) (logpdf (fin x) (fin mu) (fin s)) := by
  refine ⟨⟨fun h => ⟨_, cdf_eval h x⟩, fun h => ?_⟩, ⟨fun h => ⟨_, sf_eval h x⟩, fun h => ?_⟩,
    ⟨fun h => ⟨_, pdf_eval h x⟩, fun h => ?_⟩, ⟨fun h => ?_, fun h => ?_⟩⟩
  case refine_4 =>
    rcases le_or_gt x mu with hx | hx
    · exact ⟨_, logpdf_low h hx⟩
    · exact ⟨_, logpdf_pos h hx⟩
  all_goals simp [cdf, sf, pdf, logpdf, validateLocScale_bad _ (not_lt.1 h)]

/-- C07 -/
theorem validates_inv {p : ℝ} (h0 : 0 < p) (h1 : p < 1) : ValidatesExactly (0 < s) (invcdf (fin p) (fin mu) (fin s)) ∧
    ValidatesExactly (0 < s) (invsf (fin p) (fin mu) (fin s)) := by
  refine ⟨⟨fun h => ⟨_, invcdf_eval h h0 h1⟩, fun h => ?_⟩, ⟨fun h => ⟨_, invsf_eval h h0 h1⟩, fun h => ?_⟩⟩ <;>
  simp [invcdf, invsf, validateP_ok h0.le h1.le, validateLocScale_bad _ (not_lt.1 h)]

/-- C08 -/
theorem locScale : LocScaleInvariant (cdf · · ·) ∧ LocScaleInvariant (sf · · ·) ∧ LocScaleDensity (pdf · · ·) := by
  have e : ∀ x l s : ℝ, (x - l) / (s / 2) = 2 * ((x - l) / s) := fun x l s => by rw [div_div_eq_mul_div]; ring
  refine ⟨locScale_of_std (G := fun z => F (1 / 2) (2 * z)) fun x l s hs => ?_,
    locScale_of_std (G := fun z => 1 - F (1 / 2) (2 * z)) fun x l s hs => ?_,
    locScaleDensity_of_std (f := fun z => 2 * f (1 / 2) (2 * z)) fun x l s hs => ?_⟩
  · rw [cdf_eval hs, e]
  · rw [sf_eval hs, e]
  · rw [pdf_eval hs, e]; congr 2; field_simp

/-- C12: `levy` is `invgamma` with shape 1/2 and half the scale. -/
theorem eq_invgamma (hs : 0 < s) (x : ℝ) :
    pdf (fin x) (fin mu) (fin s) = invgamma.pdf (fin x) (fin (1 / 2)) (fin mu) (fin (s / 2)) ∧
    cdf (fin x) (fin mu) (fin s) = invgamma.cdf (fin x) (fin (1 / 2)) (fin mu) (fin (s / 2)) ∧
    sf (fin x) (fin mu) (fin s) = invgamma.sf (fin x) (fin (1 / 2)) (fin mu) (fin (s / 2)) :=
  ⟨(pdf_eval hs x).trans (invgamma.pdf_eval one_half_pos (half_pos hs) x).symm,
   (cdf_eval hs x).trans (invgamma.cdf_eval one_half_pos (half_pos hs) x).symm,
   (sf_eval hs x).trans (invgamma.sf_eval one_half_pos (half_pos hs) x).symm⟩

/-- C41 holds at the lower end and fails at the upper one: `invcdf(1)` and `invsf(0)` divide by zero. -/
theorem upper_end_fails (hs : 0 < s) :
    invcdf 0 (fin mu) (fin s) = .ok (fin mu) ∧ invsf 1 (fin mu) (fin s) = .ok (fin mu) ∧
    invcdf 1 (fin mu) (fin s) = .error .zeroDivision ∧ invsf 0 (fin mu) (fin s) = .error .zeroDivision := by
  have h0 : validateP (fin 0) = .ok (fin 0) := validateP_ok le_rfl zero_le_one
  have h1 : validateP (fin 1) = .ok (fin 1) := validateP_ok zero_le_one le_rfl
  have e1 : mp.erfinv (fin 1) = .ok pinf := mp.erfinv_one
  have e0 : mp.erfinv (fin 0) = .ok (fin 0) := by have := mp.erfinv_eval 0; rwa [erfR_zero] at this
  have e2 : fin s /. pinf = .ok (fin 0) := rfl
  have e3 : fin s /. fin 0 = .error .zeroDivision := by simp
  have e4 : mp.ipow pinf 2 = pinf := by simp only [mp.ipow, one_def, fin_mul_pinf, scaleInf_pos one_pos]; rfl
  refine ⟨?_, ?_, ?_, ?_⟩
  · simp only [invcdf, erfcinv, zero_def, one_def, ofNat_def, h0, validateLocScale_ok _ hs, ok_bind, fin_sub, sub_zero, e1, e4,
      fin_mul_pinf, scaleInf_pos two_pos, e2, fin_add, add_zero, pure_eq_ok]
  · simp only [invsf, one_def, ofNat_def, h1, validateLocScale_ok _ hs, ok_bind, e1, e4,
      fin_mul_pinf, scaleInf_pos two_pos, e2, fin_add, add_zero, pure_eq_ok]
  · simp only [invcdf, erfcinv, one_def, ofNat_def, h1, validateLocScale_ok _ hs, ok_bind, fin_sub, sub_self, e0, mp.ipow_fin, fin_mul,
      ne_eq, OfNat.ofNat_ne_zero, not_false_eq_true, zero_pow, mul_zero, e3]
    rfl
  · simp only [invsf, zero_def, ofNat_def, h0, validateLocScale_ok _ hs, ok_bind, e0, mp.ipow_fin, fin_mul,
      ne_eq, OfNat.ofNat_ne_zero, not_false_eq_true, zero_pow, mul_zero, e3]
    rfl

/-- C41 fails: `support(mu, sigma)` takes `mu` for a probability and `sigma` for the location. -/
theorem support_fails : support (fin 3) (fin 2) = .error .valueError ∧ support (fin (1 / 2)) (fin 2) = .ok (fin 2, pinf) := by
  have h1 : validateLocScale (fin 2) (1:Num) = .ok (fin 2, fin 1) := by
    rw [one_def]; exact validateLocScale_ok _ one_pos
  constructor
  · simp [support, validateP_bad (show (3:ℝ) < 0 ∨ 1 < (3:ℝ) by norm_num)]
  · simp only [support, validateP_ok (show (0:ℝ) ≤ 1 / 2 by norm_num) (by norm_num), ok_bind, h1, pure_eq_ok]

/-- C48 -/
theorem atInfinities (hs : 0 < s) : AtInfinities (cdf · (fin mu) (fin s)) (sf · (fin mu) (fin s)) := by
  have h0 : ¬ pinf ≤ fin mu := by simp
  have h1 : pinf - fin mu = pinf := rfl
  have e2 : fin s /. pinf = .ok (fin 0) := rfl
  refine ⟨by simp [cdf, validateLocScale_ok _ hs], ?_, by simp [sf, validateLocScale_ok _ hs], ?_⟩
  · simp only [cdf, validateLocScale_ok _ hs, ok_bind, h0, if_false, ofNat_def, h1, fin_mul_pinf, scaleInf_pos two_pos, e2,
      mp.sqrt_nonneg le_rfl, Real.sqrt_zero, mp.erfc_fin, erfR_zero, sub_zero, pure_eq_ok, one_def]
  · simp only [sf, validateLocScale_ok _ hs, ok_bind, h0, if_false, ofNat_def, h1, fin_mul_pinf, scaleInf_pos two_pos, e2,
      mp.sqrt_nonneg le_rfl, Real.sqrt_zero, mp.erf_fin, erfR_zero, pure_eq_ok, zero_def]

/-- Non-vacuity -/
example : (0:ℝ) < 3 ∧ (0:ℝ) < 1 / 3 ∧ (1 / 3 : ℝ) < 1 := by norm_num

end Mpsci.levy
