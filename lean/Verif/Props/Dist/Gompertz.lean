import Verif.Lemmas.Dist.Gompertz

/-! Properties of `gompertz`. -/

namespace Mpsci.gompertz

open Classical Num Spec common Filter Topology Set 

variable {c s : ℝ}

/-- C01 -/
theorem complementary (hc : 0 < c) (hs : 0 < s) : Complementary (cdf · (fin c) (fin s)) (sf · (fin c) (fin s)) :=
  complementary_of (cdf_eval hc hs) (sf_eval hc hs)

/-- C02 -/
theorem isCdf (hc : 0 < c) (hs : 0 < s) : IsCdf (cdf · (fin c) (fin s)) := (isDist hc hs).isCdf (cdf_eval hc hs)

/-- C03 -/
theorem isDensity (hc : 0 < c) (hs : 0 < s) : IsDensity ∅ (Ici 0) (pdf · (fin c) (fin s)) (cdf · (fin c) (fin s)) :=
  (isDist hc hs).isDensity (fun x hx => pdf_eval hc hs x) (cdf_eval hc hs) (f_zero hc hs)

/-- C05 -/
theorem inverts_cdf (hc : 0 < c) (hs : 0 < s) : Inverts (Ioi 0) (cdf · (fin c) (fin s)) (invcdf · (fin c) (fin s)) := by
  rw [← preimage_scale_Ioi_zero hs]
  exact inverts_scale hs (fun x _ => cdf_eval hc hs x) (fun _ => invcdf_eval hc hs) (fun _ => F_Q hc hs)
    (fun _ => Q_F hc hs)

/-- C05 -/
theorem inverts_sf (hc : 0 < c) (hs : 0 < s) : Inverts (Ioi 0) (sf · (fin c) (fin s)) (invsf · (fin c) (fin s)) := by
  rw [← preimage_scale_Ioi_zero hs]
  exact inverts_scale_compl hs (fun x _ => sf_eval hc hs x) (fun _ => invsf_eval hc hs) (fun _ => F_Q hc hs)
    (fun _ => Q_F hc hs)

/-- C06 -/
theorem rejects_p : RejectsBadP (invcdf · (fin c) (fin s)) ∧ RejectsBadP (invsf · (fin c) (fin s)) := by
  by_cases h : 0 < c ∧ 0 < s
  · constructor <;> intro p hp <;> simp [invcdf, invsf, validateP_bad hp, validate_ok h.1 h.2]
  · constructor <;> intro p hp <;> simp [invcdf, invsf, validateP_bad hp, validate_bad h]

/-- C07 -/
theorem validates (x : ℝ) :
    ValidatesExactly (0 < c ∧ 0 < s) (cdf (fin x) (fin c) (fin s)) ∧
    ValidatesExactly (0 < c ∧ 0 < s) (sf (fin x) (fin c) (fin s)) ∧
    ValidatesExactly (0 < c ∧ 0 < s) (pdf (fin x) (fin c) (fin s)) ∧
    ValidatesExactly (0 < c ∧ 0 < s) (logpdf (fin x) (fin c) (fin s)) := by
  refine ⟨⟨fun h => ⟨_, cdf_eval h.1 h.2 x⟩, fun h => ?_⟩, ⟨fun h => ⟨_, sf_eval h.1 h.2 x⟩, fun h => ?_⟩,
    ⟨fun h => pdf_returns h.1 h.2 x, fun h => ?_⟩, ⟨fun h => logpdf_returns h.1 h.2 x, fun h => ?_⟩⟩ <;>
  simp [cdf, sf, pdf, logpdf, validate_bad h]

/-- C08 -/
theorem scale (hc : 0 < c) : ScaleInvariant (fun x s => cdf x (fin c) s) ∧
    ScaleInvariant (fun x s => sf x (fin c) s) := 
  ⟨scale_of_std fun x _ hs => cdf_eval hc hs x,
   scale_of_std (G := fun z => 1 - F c z) fun x _ hs => sf_eval hc hs x⟩

/-- C08 -/
theorem scale_pdf (hc : 0 < c) : ScaleDensity (fun x s => pdf x (fin c) s) :=
  scaleDensity_of_std fun x _ hs => pdf_eval hc hs x

/-- C04 -/
theorem isLogOf (hc : 0 < c) (hs : 0 < s) : IsLogOf ∅ (pdf · (fin c) (fin s)) (logpdf · (fin c) (fin s)) :=
  isLogOf_of (P := Ici 0)
    (fun _ _ hx => div_pos (f_pos hc (by rw [scale_lt_zero hs]; exact not_lt.2 hx)) hs)
    (fun x _ hx => f_zero hc hs x hx)
    (fun x _ => pdf_eval hc hs x) (fun x _ hx => logpdf_ge hc hs (not_lt.2 hx))
    (fun x _ hx => logpdf_lt hc hs (not_le.1 hx))

/-- C09 -/
theorem isMode (hc : 0 < c) (hs : 0 < s) : IsMode ∅ (pdf · (fin c) (fin s)) (mode (fin c) (fin s)) := by
  rcases le_or_gt 1 c with h | h
  · refine isMode_of (m := 0) (by simp [mode, validate_ok hc hs, h]) (fun x _ => pdf_eval hc hs x)
      (by simp) fun y _ => ?_
    have := f_le_of_ge h (y / s)
    rw [zero_div]; gcongr
  · refine isMode_of (m := -s * Real.log c)
      (by simp [mode, validate_ok hc hs, h.not_ge, mp.log_pos hc]) (fun x _ => pdf_eval hc hs x)
      (by simp) fun y _ => ?_
    have := f_le_of_lt hc h (y / s)
    have e : -s * Real.log c / s = -Real.log c := by field_simp
    rw [e]; gcongr

/-- C41 -/
theorem endPoints (hc : 0 < c) (hs : 0 < s) :
    EndPoints (invcdf · (fin c) (fin s)) 0 pinf ∧ EndPoints (invsf · (fin c) (fin s)) pinf 0 := by
  refine ⟨⟨?_, ?_⟩, ⟨?_, ?_⟩⟩ <;> simp [invcdf, invsf, validateP_ok, validate_ok hc hs]

/-- C48 -/
theorem atInfinities (hc : 0 < c) (hs : 0 < s) : AtInfinities (cdf · (fin c) (fin s)) (sf · (fin c) (fin s)) := by
  have h := scaleInf_neg (neg_lt_zero.2 hc)
  refine ⟨?_, ?_, ?_, ?_⟩ <;>
  simp [cdf, sf, validate_ok hc hs, pinf_div_pos hs, h]

theorem support_eq (hc : 0 < c) (hs : 0 < s) : support (fin c) (fin s) = .ok (0, pinf) := by
  simp [support, validate_ok hc hs]

/-- Non-vacuity: `c = 2`, `scale = 3`: `sf(3 log 2) = exp(-2)`. -/
example : (0:ℝ) < 2 ∧ (0:ℝ) < 3 ∧
    sf (fin (3 * Real.log 2)) (fin 2) (fin 3) = .ok (fin (Real.exp (-2))) := by
  refine ⟨by norm_num, by norm_num, ?_⟩
  have h : 3 * Real.log 2 / 3 = Real.log 2 := by field_simp
  rw [sf_eval (by norm_num) (by norm_num), h, F, if_neg (Real.log_pos (by norm_num)).not_ge,
    Real.exp_log (by norm_num)]
  norm_num

end Mpsci.gompertz
