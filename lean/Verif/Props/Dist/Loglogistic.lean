import Verif.Lemmas.Dist.Loglogistic

/-! Properties of `loglogistic`. -/

namespace Mpsci.loglogistic

open Classical Num Spec common Filter Topology Set 

variable {b s : ℝ}

/-- C01 -/
theorem complementary (hb : 0 < b) (hs : 0 < s) : Complementary (cdf · (fin b) (fin s)) (sf · (fin b) (fin s)) :=
  complementary_of (cdf_eval hb hs) (sf_eval hb hs)

/-- C02 -/
theorem isCdf (hb : 0 < b) (hs : 0 < s) : IsCdf (cdf · (fin b) (fin s)) := (isDist hb hs).isCdf (cdf_eval hb hs)

/-- C03 -/
theorem isDensity (hb : 0 < b) (hs : 0 < s) : IsDensity ∅ (Ici 0) (pdf · (fin b) (fin s)) (cdf · (fin b) (fin s)) :=
  (isDist hb hs).isDensity (fun x hx => pdf_eval hb hs x) (cdf_eval hb hs) (f_zero hb hs)

/-- C05 -/
theorem inverts_cdf (hb : 0 < b) (hs : 0 < s) : Inverts (Ioi 0) (cdf · (fin b) (fin s)) (invcdf · (fin b) (fin s)) := by
  rw [← preimage_scale_Ioi_zero hs]
  exact inverts_scale hs (fun x _ => cdf_eval hb hs x) (fun _ => invcdf_eval hb hs) (fun _ => F_Q hb hs)
    (fun _ => Q_F hb hs)

/-- C05 -/
theorem inverts_sf (hb : 0 < b) (hs : 0 < s) : Inverts (Ioi 0) (sf · (fin b) (fin s)) (invsf · (fin b) (fin s)) := by
  rw [← preimage_scale_Ioi_zero hs]
  exact inverts_scale_compl hs (fun x _ => sf_eval hb hs x) (fun _ => invsf_eval hb hs) (fun _ => F_Q hb hs)
    (fun _ => Q_F hb hs)

/-- C06 -/
theorem rejects_p : RejectsBadP (invcdf · (fin b) (fin s)) ∧ RejectsBadP (invsf · (fin b) (fin s)) := by
  by_cases h : 0 < b ∧ 0 < s
  · constructor <;> intro p hp <;> simp [invcdf, invsf, validateP_bad hp, validate_ok h.1 h.2]
  · constructor <;> intro p hp <;> simp [invcdf, invsf, validateP_bad hp, validate_bad h]

/-- C07 -/
theorem validates (x : ℝ) :
    ValidatesExactly (0 < b ∧ 0 < s) (cdf (fin x) (fin b) (fin s)) ∧
    ValidatesExactly (0 < b ∧ 0 < s) (sf (fin x) (fin b) (fin s)) ∧
    ValidatesExactly (0 < b ∧ 0 < s) (pdf (fin x) (fin b) (fin s)) ∧
    ValidatesExactly (0 < b ∧ 0 < s) (logpdf (fin x) (fin b) (fin s)) := by
  refine ⟨⟨fun h => ⟨_, cdf_eval h.1 h.2 x⟩, fun h => ?_⟩, ⟨fun h => ⟨_, sf_eval h.1 h.2 x⟩, fun h => ?_⟩,
    ⟨fun h => pdf_returns h.1 h.2 x, fun h => ?_⟩, ⟨fun h => logpdf_returns h.1 h.2 x, fun h => ?_⟩⟩ <;>
  simp [cdf, sf, pdf, logpdf, validate_bad h]

/-- C08 -/
theorem scale (hb : 0 < b) : ScaleInvariant (fun x s => cdf x (fin b) s) ∧
    ScaleInvariant (fun x s => sf x (fin b) s) := 
  ⟨scale_of_std fun x _ hs => cdf_eval hb hs x,
   scale_of_std (G := fun z => 1 - F b z) fun x _ hs => sf_eval hb hs x⟩

/-- C08 -/
theorem scale_pdf (hb : 0 < b) : ScaleDensity (fun x s => pdf x (fin b) s) :=
  scaleDensity_of_std fun x _ hs => pdf_eval hb hs x

/-- C04 -/
theorem isLogOf (hb : 0 < b) (hs : 0 < s) : IsLogOf ∅ (pdf · (fin b) (fin s)) (logpdf · (fin b) (fin s)) :=
  isLogOf_of (P := Ioi 0) (fun _ _ hx => div_pos (f_pos hb (div_pos hx hs)) hs)
    (fun x _ hx => by simp [f, (scale_le_zero hs).2 (not_lt.1 hx)])
    (fun x _ => pdf_eval hb hs x) (fun x _ hx => logpdf_pos hb hs hx)
    (fun x _ hx => logpdf_neg hb hs (not_lt.1 hx))

/-- C41 -/
theorem endPoints (hb : 0 < b) (hs : 0 < s) :
    EndPoints (invcdf · (fin b) (fin s)) 0 pinf ∧ EndPoints (invsf · (fin b) (fin s)) pinf 0 := by
  have h := mp.power_zero_pos (one_div_pos.2 hb)
  refine ⟨⟨?_, ?_⟩, ⟨?_, ?_⟩⟩ <;>
    simp only [invcdf, invsf, validateP_ok, validate_ok hb hs, zero_def, one_def, le_refl,
      zero_le_one, ok_bind, fin_eq, zero_ne_one, one_ne_zero, if_true, if_false, fin_sub, sub_zero,
      sub_self, fin_div _ one_ne_zero, fin_div _ hb.ne', zero_div, h, fin_mul, mul_zero, pure_eq_ok]

/-- C48 -/
theorem atInfinities (hb : 0 < b) (hs : 0 < s) : AtInfinities (cdf · (fin b) (fin s)) (sf · (fin b) (fin s)) := by
  refine ⟨?_, ?_, ?_, ?_⟩ <;>
  simp [cdf, sf, validate_ok hb hs, pinf_div_pos hs, mp.power, hb, hb.not_gt, hb.ne', fin_div]

theorem support_eq (hb : 0 < b) (hs : 0 < s) : support (fin b) (fin s) = .ok (0, pinf) := by
  simp [support, validate_ok hb hs]

/-- Non-vacuity: `beta = 2`, `scale = 3`: `cdf(3) = 1/2`. -/
example : (0:ℝ) < 2 ∧ (0:ℝ) < 3 ∧ cdf (fin 3) (fin 2) (fin 3) = .ok (fin (1 / 2)) := by
  refine ⟨by norm_num, by norm_num, ?_⟩
  rw [cdf_eval (by norm_num) (by norm_num), div_self (by norm_num), F, if_neg (by norm_num)]
  norm_num

end Mpsci.loglogistic
