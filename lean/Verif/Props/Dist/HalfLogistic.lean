import Verif.Lemmas.Dist.HalfLogistic

/-! Properties of `half_logistic`. -/

namespace Mpsci.half_logistic

open Classical Num Spec common Filter Topology Set 

variable {loc s : ℝ}

/-- C01 -/
theorem complementary (hs : 0 < s) : Complementary (cdf · (fin loc) (fin s)) (sf · (fin loc) (fin s)) :=
  complementary_of (cdf_eval hs) (sf_eval hs)

/-- C02 -/
theorem isCdf (hs : 0 < s) : IsCdf (cdf · (fin loc) (fin s)) := (isDist hs).isCdf (cdf_eval hs)

/-- C03 -/
theorem isDensity (hs : 0 < s) : IsDensity ∅ (Ici loc) (pdf · (fin loc) (fin s)) (cdf · (fin loc) (fin s)) :=
  (isDist hs).isDensity (fun x hx => pdf_eval hs x) (cdf_eval hs) (f_zero hs)

/-- C05 -/
theorem inverts_cdf (hs : 0 < s) : Inverts (Ioi loc) (cdf · (fin loc) (fin s)) (invcdf · (fin loc) (fin s)) := by
  rw [← preimage_affine_Ioi_zero hs]
  exact inverts_affine hs (fun x _ => cdf_eval hs x) (fun _ => invcdf_eval hs) (fun _ => F_Q hs)
    (fun _ => Q_F hs)

/-- C05 -/
theorem inverts_sf (hs : 0 < s) : Inverts (Ioi loc) (sf · (fin loc) (fin s)) (invsf · (fin loc) (fin s)) := by
  rw [← preimage_affine_Ioi_zero hs]
  exact inverts_affine_compl hs (fun x _ => sf_eval hs x) (fun _ => invsf_eval hs) (fun _ => F_Q hs)
    (fun _ => Q_F hs)

/-- C06 -/
theorem rejects_p : RejectsBadP (invcdf · (fin loc) (fin s)) ∧ RejectsBadP (invsf · (fin loc) (fin s)) := by
  by_cases h : 0 < s
  · constructor <;> intro p hp <;> simp [invcdf, invsf, validateP_bad hp, validate_ok h]
  · constructor <;> intro p hp <;> simp [invcdf, invsf, validateP_bad hp, validate_bad h]

/-- C07 -/
theorem validates (x : ℝ) :
    ValidatesExactly (0 < s) (cdf (fin x) (fin loc) (fin s)) ∧
    ValidatesExactly (0 < s) (sf (fin x) (fin loc) (fin s)) ∧
    ValidatesExactly (0 < s) (pdf (fin x) (fin loc) (fin s)) ∧
    ValidatesExactly (0 < s) (logpdf (fin x) (fin loc) (fin s)) := by
  refine ⟨⟨fun h => ⟨_, cdf_eval h x⟩, fun h => ?_⟩, ⟨fun h => ⟨_, sf_eval h x⟩, fun h => ?_⟩,
    ⟨fun h => pdf_returns h x, fun h => ?_⟩, ⟨fun h => logpdf_returns h x, fun h => ?_⟩⟩ <;>
  simp [cdf, sf, pdf, logpdf, validate_bad h]

/-- C08 -/
theorem locScale  : LocScaleInvariant (fun x loc s => cdf x  loc s) ∧
    LocScaleInvariant (fun x loc s => sf x  loc s) := 
  ⟨locScale_of_std fun x _ _ hs => cdf_eval hs x,
   locScale_of_std (G := fun z => 1 - F  z) fun x _ _ hs => sf_eval hs x⟩

/-- C08 -/
theorem locScale_pdf : LocScaleDensity @pdf := locScaleDensity_of_std fun x _ _ hs => pdf_eval hs x

/-- C04 -/
theorem isLogOf (hs : 0 < s) :
    IsLogOf ∅ (pdf · (fin loc) (fin s)) (logpdf · (fin loc) (fin s)) := by
  refine isLogOf_of (P := Ici loc) (fun x _ hx => ?_) (fun x _ hx => f_zero hs x hx)
    (fun x _ => pdf_eval hs x) (fun x _ hx => logpdf_ge hs (not_lt.2 hx))
    (fun x _ hx => logpdf_lt hs (not_le.1 hx))
  have : ¬ (x - loc) / s < 0 := by rw [affine_lt_zero hs]; exact not_lt.2 hx
  exact div_pos (f_pos this) hs

/-- C09 -/
theorem isMode (hs : 0 < s) : IsMode ∅ (pdf · (fin loc) (fin s)) (mode (fin loc) (fin s)) := by
  refine isMode_of (m := loc) (by simp [mode, validateLocScale_ok _ hs])
    (fun x _ => pdf_eval hs x) (by simp) fun y _ => ?_
  rw [sub_self, zero_div]
  gcongr
  exact f_le _

/-- C41 -/
theorem endPoints (hs : 0 < s) :
    EndPoints (invcdf · (fin loc) (fin s)) (fin loc) pinf ∧
    EndPoints (invsf · (fin loc) (fin s)) pinf (fin loc) := by
  refine ⟨⟨?_, ?_⟩, ⟨?_, ?_⟩⟩ <;> simp [invcdf, invsf, validateP_ok, validateLocScale_ok _ hs]

/-- C48 -/
theorem atInfinities (hs : 0 < s) :
    AtInfinities (cdf · (fin loc) (fin s)) (sf · (fin loc) (fin s)) := by
  have : fin 1 /. fin 1 = .ok (fin 1) := by simp [fin_div _ one_ne_zero]
  have : fin 0 /. fin 1 = .ok (fin 0) := by simp [fin_div _ one_ne_zero]
  refine ⟨?_, ?_, ?_, ?_⟩ <;>
  simp [cdf, sf, validateLocScale_ok _ hs, pinf_div_pos hs, *]

theorem support_eq (hs : 0 < s) : support (fin loc) (fin s) = .ok (fin loc, pinf) := by
  simp [support, validateLocScale_ok _ hs]

/-- C12: half the absolute deviation of a logistic variable: `cdf` is the probability that a
logistic variable lies within `x - loc` of its location. -/
theorem cdf_eq_logistic (hs : 0 < s) {x : ℝ} (hx : loc ≤ x) :
    ∃ c1 c2 : ℝ, logistic.cdf (fin x) (fin loc) (fin s) = .ok (fin c2) ∧
      logistic.cdf (fin (loc - (x - loc))) (fin loc) (fin s) = .ok (fin c1) ∧
      cdf (fin x) (fin loc) (fin s) = .ok (fin (c2 - c1)) := by
  refine ⟨_, _, logistic.cdf_eval hs _, logistic.cdf_eval hs _, ?_⟩
  have h : ¬ (x - loc) / s < 0 := by rw [affine_lt_zero hs]; exact not_lt.2 hx
  have e : (loc - (x - loc) - loc) / s = -((x - loc) / s) := by ring
  rw [cdf_eval hs, F, if_neg h, e, logistic.F_neg]
  congr 2; ring

/-- Non-vacuity: `loc = 1`, `scale = 2` is admissible; `cdf(1) = 0` and `pdf(1) = 1/4`. -/
example : (0:ℝ) < 2 ∧ cdf (fin 1) (fin 1) (fin 2) = .ok (fin 0) ∧
    pdf (fin 1) (fin 1) (fin 2) = .ok (fin (1 / 4)) := by
  refine ⟨by norm_num, ?_, ?_⟩
  · rw [cdf_eval (by norm_num)]; simp [F, logistic.F]; norm_num
  · rw [pdf_eval (by norm_num)]; simp [f, logistic.f]; norm_num

end Mpsci.half_logistic
