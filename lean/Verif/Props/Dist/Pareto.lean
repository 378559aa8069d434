import Verif.Lemmas.Dist.Pareto

/-! Properties of `pareto`. -/

namespace Mpsci.pareto

open Classical Num Spec common Filter Topology Set 

variable {b loc s : ℝ}

/-- C01 -/
theorem complementary (hb : 0 < b) (hs : 0 < s) : Complementary (cdf · (fin b) (fin loc) (fin s)) (sf · (fin b) (fin loc) (fin s)) :=
  complementary_of (cdf_eval hb hs) (sf_eval hb hs)

/-- C02 -/
theorem isCdf (hb : 0 < b) (hs : 0 < s) : IsCdf (cdf · (fin b) (fin loc) (fin s)) := (isDist hb hs).isCdf (cdf_eval hb hs)

/-- C03 -/
theorem isDensity (hb : 0 < b) (hs : 0 < s) : IsDensity ∅ (Ici (loc + s)) (pdf · (fin b) (fin loc) (fin s)) (cdf · (fin b) (fin loc) (fin s)) :=
  (isDist hb hs).isDensity (fun x hx => pdf_eval hb hs x) (cdf_eval hb hs) (f_zero hb hs)

/-- C05 -/
theorem inverts_cdf (hb : 0 < b) (hs : 0 < s) : Inverts (Ioi (loc + s)) (cdf · (fin b) (fin loc) (fin s)) (invcdf · (fin b) (fin loc) (fin s)) := by
  rw [← show (fun x => (x - loc) / s) ⁻¹' Ioi 1 = Ioi (loc + s) by simp [preimage_affine_Ioi hs]]
  exact inverts_affine hs (fun x _ => cdf_eval hb hs x) (fun _ => invcdf_eval hb hs) (fun _ => F_Q hb hs)
    (fun _ => Q_F hb hs)

/-- C05 -/
theorem inverts_sf (hb : 0 < b) (hs : 0 < s) : Inverts (Ioi (loc + s)) (sf · (fin b) (fin loc) (fin s)) (invsf · (fin b) (fin loc) (fin s)) := by
  rw [← show (fun x => (x - loc) / s) ⁻¹' Ioi 1 = Ioi (loc + s) by simp [preimage_affine_Ioi hs]]
  exact inverts_affine_compl hs (fun x _ => sf_eval hb hs x) (fun _ => invsf_eval hb hs) (fun _ => F_Q hb hs)
    (fun _ => Q_F hb hs)

/-- C06 -/
theorem rejects_p : RejectsBadP (invcdf · (fin b) (fin loc) (fin s)) ∧ RejectsBadP (invsf · (fin b) (fin loc) (fin s)) := by
  by_cases h : 0 < b ∧ 0 < s
  · constructor <;> intro p hp <;> simp [invcdf, invsf, validateP_bad hp, validate_ok h.1 h.2]
  · constructor <;> intro p hp <;> simp [invcdf, invsf, validateP_bad hp, validate_bad h]

/-- C07 -/
theorem validates (x : ℝ) :
    ValidatesExactly (0 < b ∧ 0 < s) (cdf (fin x) (fin b) (fin loc) (fin s)) ∧
    ValidatesExactly (0 < b ∧ 0 < s) (sf (fin x) (fin b) (fin loc) (fin s)) ∧
    ValidatesExactly (0 < b ∧ 0 < s) (pdf (fin x) (fin b) (fin loc) (fin s)) ∧
    ValidatesExactly (0 < b ∧ 0 < s) (logpdf (fin x) (fin b) (fin loc) (fin s)) := by
  refine ⟨⟨fun h => ⟨_, cdf_eval h.1 h.2 x⟩, fun h => ?_⟩, ⟨fun h => ⟨_, sf_eval h.1 h.2 x⟩, fun h => ?_⟩,
    ⟨fun h => pdf_returns h.1 h.2 x, fun h => ?_⟩, ⟨fun h => logpdf_returns h.1 h.2 x, fun h => ?_⟩⟩ <;>
  simp [cdf, sf, pdf, logpdf, validate_bad h]

/-- C08 -/
theorem locScale (hb : 0 < b) : LocScaleInvariant (fun x loc s => cdf x (fin b) loc s) ∧
    LocScaleInvariant (fun x loc s => sf x (fin b) loc s) := 
  ⟨locScale_of_std fun x _ _ hs => cdf_eval hb hs x,
   locScale_of_std (G := fun z => 1 - F b z) fun x _ _ hs => sf_eval hb hs x⟩

/-- C08 -/
theorem locScale_pdf (hb : 0 < b) : LocScaleDensity (fun x loc s => pdf x (fin b) loc s) :=
  locScaleDensity_of_std fun x _ _ hs => pdf_eval hb hs x

/-- C04 -/
theorem isLogOf (hb : 0 < b) (hs : 0 < s) : IsLogOf ∅ (pdf · (fin b) (fin loc) (fin s)) (logpdf · (fin b) (fin loc) (fin s)) := by
  refine isLogOf_of (P := Ici (loc + s)) (fun x _ hx => ?_) (fun x _ hx => f_zero hb hs x hx)
    (fun x _ => pdf_eval hb hs x) (fun x _ hx => logpdf_ge hb hs (not_lt.2 hx))
    (fun x _ hx => logpdf_lt hb hs (not_le.1 hx))
  have : ¬ (x - loc) / s < 1 := by rw [← affine_lt_one hs]; exact not_lt.2 hx
  exact div_pos (f_pos hb this) hs

/-- C41, the part that holds: the lower end of the support. -/
theorem endPoints_partial (hb : 0 < b) (hs : 0 < s) :
    invcdf 0 (fin b) (fin loc) (fin s) = .ok (fin (loc + s)) ∧ invsf 1 (fin b) (fin loc) (fin s) = .ok (fin (loc + s)) := by
  have h := invPowm1_eval hb (p := 0) (by norm_num)
  simp only [neg_zero] at h
  constructor
  · simp [invcdf, validateP_ok, validate_ok hb hs, h, Q]
  · simp [invsf, validateP_ok, validate_ok hb hs, fin_div _ hb.ne', mp.power_pos one_pos]

/-- C41 fails at the upper end: `invcdf(1)` raises ValueError for every shape, and `invsf(0)`
divides by zero (shown for `b = 1`), instead of returning `+inf`. -/
theorem endPoints_fail (hb : 0 < b) (hs : 0 < s) :
    invcdf 1 (fin b) (fin loc) (fin s) = .error .valueError ∧
    invsf 0 1 (fin loc) (fin s) = .error .zeroDivision := by
  constructor
  · simp [invcdf, validateP_ok, validate_ok hb hs, fun_.invPowm1, hb.ne']
  · have h1 : fin (-1) /. fin 1 = .ok (fin (-1)) := by simp [fin_div _ one_ne_zero]
    have h2 : mp.power (fin 0) (fin (-1)) = .error .zeroDivision :=
      mp.power_zero_neg_half (k := -2) (by norm_num) (by norm_num)
    simp [invsf, validateP_ok, validate_ok one_pos hs, h1, h2]

/-- C48 -/
theorem atInfinities (hb : 0 < b) (hs : 0 < s) : AtInfinities (cdf · (fin b) (fin loc) (fin s)) (sf · (fin b) (fin loc) (fin s)) := by
  refine ⟨?_, ?_, ?_, ?_⟩ <;>
  simp [cdf, sf, validate_ok hb hs, pinf_div_pos hs, mp.powm1, mp.power, hb, hb.not_gt, hb.ne']

theorem support_eq (hb : 0 < b) (hs : 0 < s) : support (fin b) (fin loc) (fin s) = .ok (fin (loc + s), pinf) := by
  simp [support, validate_ok hb hs]

/-- Non-vacuity: `b = 2`, `loc = 0`, `scale = 3`: `sf(6) = 1/4`. -/
example : (0:ℝ) < 2 ∧ (0:ℝ) < 3 ∧ sf (fin 6) (fin 2) (fin 0) (fin 3) = .ok (fin (1 / 4)) := by
  refine ⟨by norm_num, by norm_num, ?_⟩
  rw [sf_eval (by norm_num) (by norm_num)]
  have : ((6:ℝ) - 0) / 3 = 2 := by norm_num
  rw [this, F, if_neg (by norm_num)]
  have : (2:ℝ) ^ (-2:ℝ) = 1 / 4 := by rw [Real.rpow_neg (by norm_num)]; norm_num
  rw [this]; norm_num

end Mpsci.pareto
