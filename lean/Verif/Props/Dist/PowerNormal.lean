import Verif.Lemmas.Dist.PowerNormal
import Verif.Props.Dist.Normal

/-! Properties of `power_normal`. -/

namespace Mpsci.power_normal

open Classical Num Spec common Filter Topology Set 

variable {c loc s : ℝ}

/-- C01 -/
theorem complementary (hc : 0 < c) (hs : 0 < s) : Complementary (cdf · (fin c) (fin loc) (fin s)) (sf · (fin c) (fin loc) (fin s)) :=
  complementary_of (cdf_eval hc hs) (sf_eval hc hs)

/-- C02 -/
theorem isCdf (hc : 0 < c) (hs : 0 < s) : IsCdf (cdf · (fin c) (fin loc) (fin s)) := (isDist hc hs).isCdf (cdf_eval hc hs)

/-- C03 -/
theorem isDensity (hc : 0 < c) (hs : 0 < s) : IsDensity ∅ univ (pdf · (fin c) (fin loc) (fin s)) (cdf · (fin c) (fin loc) (fin s)) :=
  (isDist hc hs).isDensity (fun x hx => pdf_eval hc hs x) (cdf_eval hc hs) (by simp)

/-- C05 -/
theorem inverts_cdf (hc : 0 < c) (hs : 0 < s) : Inverts univ (cdf · (fin c) (fin loc) (fin s)) (invcdf · (fin c) (fin loc) (fin s)) := 
  inverts_affine hs (fun x _ => cdf_eval hc hs x) (fun _ => invcdf_eval hc hs) (fun _ => F_Q hc hs)
    (fun _ => Q_F hc hs)

/-- C05 -/
theorem inverts_sf (hc : 0 < c) (hs : 0 < s) : Inverts univ (sf · (fin c) (fin loc) (fin s)) (invsf · (fin c) (fin loc) (fin s)) := 
  inverts_affine_compl hs (fun x _ => sf_eval hc hs x) (fun _ => invsf_eval hc hs) (fun _ => F_Q hc hs)
    (fun _ => Q_F hc hs)

/-- C06 -/
theorem rejects_p : RejectsBadP (invcdf · (fin c) (fin loc) (fin s)) ∧ RejectsBadP (invsf · (fin c) (fin loc) (fin s)) := by
  by_cases h : 0 < c ∧ 0 < s
  · constructor <;> intro p hp <;> simp [invcdf, invsf, validateP_bad hp, validate_ok h.1 h.2]
  · constructor <;> intro p hp <;> simp [invcdf, invsf, validateP_bad hp, validate_bad h]

/-- C07 -/
theorem validates (x : ℝ) :
    ValidatesExactly (0 < c ∧ 0 < s) (cdf (fin x) (fin c) (fin loc) (fin s)) ∧
    ValidatesExactly (0 < c ∧ 0 < s) (sf (fin x) (fin c) (fin loc) (fin s)) ∧
    ValidatesExactly (0 < c ∧ 0 < s) (pdf (fin x) (fin c) (fin loc) (fin s)) ∧
    ValidatesExactly (0 < c ∧ 0 < s) (logpdf (fin x) (fin c) (fin loc) (fin s)) := by
  refine ⟨⟨fun h => ⟨_, cdf_eval h.1 h.2 x⟩, fun h => ?_⟩, ⟨fun h => ⟨_, sf_eval h.1 h.2 x⟩, fun h => ?_⟩,
    ⟨fun h => pdf_returns h.1 h.2 x, fun h => ?_⟩, ⟨fun h => logpdf_returns h.1 h.2 x, fun h => ?_⟩⟩ <;>
  simp [cdf, sf, pdf, logpdf, validate_bad h]

/-- C08 -/
theorem locScale (hc : 0 < c) : LocScaleInvariant (fun x loc s => cdf x (fin c) loc s) ∧
    LocScaleInvariant (fun x loc s => sf x (fin c) loc s) := 
  ⟨locScale_of_std fun x _ _ hs => cdf_eval hc hs x,
   locScale_of_std (G := fun z => 1 - F c z) fun x _ _ hs => sf_eval hc hs x⟩

/-- C08 -/
theorem locScale_pdf (hc : 0 < c) : LocScaleDensity (fun x loc s => pdf x (fin c) loc s) :=
  locScaleDensity_of_std fun x _ _ hs => pdf_eval hc hs x

/-- C04 -/
theorem isLogOf (hc : 0 < c) (hs : 0 < s) :
    IsLogOf ∅ (pdf · (fin c) (fin loc) (fin s)) (logpdf · (fin c) (fin loc) (fin s)) :=
  isLogOf_pos (fun x _ => div_pos (f_pos hc _) hs) (fun x _ => pdf_eval hc hs x) (fun x _ => logpdf_eval hc hs x)

/-- C12: with `c = 1` this is the normal distribution. -/
theorem one_eq_normal (hs : 0 < s) (x : ℝ) :
    cdf (fin x) (fin 1) (fin loc) (fin s) = normal.cdf (fin x) (fin loc) (fin s) ∧
    sf (fin x) (fin 1) (fin loc) (fin s) = normal.sf (fin x) (fin loc) (fin s) ∧
    pdf (fin x) (fin 1) (fin loc) (fin s) = normal.pdf (fin x) (fin loc) (fin s) := by
  rw [cdf_eval one_pos hs, sf_eval one_pos hs, pdf_eval one_pos hs, normal.cdf_eval hs, normal.sf_eval hs,
    normal.pdf_eval hs]
  simp [F, f, Phi_neg]

/-- C41 -/
theorem endPoints (hc : 0 < c) (hs : 0 < s) : EndPoints (invcdf · (fin c) (fin loc) (fin s)) ninf pinf ∧
    EndPoints (invsf · (fin c) (fin loc) (fin s)) pinf ninf := by
  have h1 : normal.invcdf (fin 1) (fin 0) (fin 1) = .ok pinf := (normal.endPoints (loc := 0) one_pos).1.2
  have h0 : normal.invcdf (fin 0) (fin 0) (fin 1) = .ok ninf := (normal.endPoints (loc := 0) one_pos).1.1
  have p1 : mp.power (fin 1) (fin (1 / c)) = .ok (fin 1) := by
    have := mp.power_pos one_pos (1 / c); rwa [Real.one_rpow] at this
  have p0 : mp.power (fin 0) (fin (1 / c)) = .ok (fin 0) := mp.power_zero_pos (by positivity)
  refine ⟨⟨?_, ?_⟩, ⟨?_, ?_⟩⟩ <;>
  simp only [invcdf, invsf, one_def, zero_def, validateP_ok le_rfl zero_le_one, validateP_ok zero_le_one le_rfl,
    validate_ok hc hs, ok_bind, fin_sub, sub_zero, sub_self, fin_div _ hc.ne', p1, p0, h1, h0, pure_eq_ok] <;>
  simp [scaleInf_pos hs]

/-- C48 -/
theorem atInfinities (hc : 0 < c) (hs : 0 < s) :
    AtInfinities (cdf · (fin c) (fin loc) (fin s)) (sf · (fin c) (fin loc) (fin s)) := by
  refine ⟨?_, ?_, ?_, ?_⟩ <;>
  simp [cdf, sf, validate_ok hc hs, pinf_div_pos hs, ninf_div_pos hs, mp.log, scaleInf_pos hc]

theorem support_eq (hc : 0 < c) (hs : 0 < s) : support (fin c) (fin loc) (fin s) = .ok (ninf, pinf) := by
  simp [support, validate_ok hc hs]

/-- Non-vacuity: with `c = 2`, `cdf(loc) = 3/4`. -/
example : cdf (fin 0) (fin 2) (fin 0) (fin 3) = .ok (fin (3 / 4)) := by
  rw [cdf_eval (by norm_num) (by norm_num)]; norm_num [F, Phi_zero]

end Mpsci.power_normal
