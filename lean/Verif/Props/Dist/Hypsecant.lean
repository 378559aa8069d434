import Verif.Lemmas.Dist.Hypsecant
import Verif.Lemmas.Fit

/-! Properties of `hypsecant`. -/

namespace Mpsci.hypsecant

open Classical Num Spec common Filter Topology Set 

variable {loc s : ℝ}

/-- C01 -/
theorem complementary (hs : 0 < s) : Complementary (cdf · (fin loc) (fin s)) (sf · (fin loc) (fin s)) :=
  complementary_of (cdf_eval hs) (sf_eval hs)

/-- C02 -/
theorem isCdf (hs : 0 < s) : IsCdf (cdf · (fin loc) (fin s)) := (isDist hs).isCdf (cdf_eval hs)

/-- C03 -/
theorem isDensity (hs : 0 < s) : IsDensity ∅ univ (pdf · (fin loc) (fin s)) (cdf · (fin loc) (fin s)) :=
  (isDist hs).isDensity (fun x hx => pdf_eval hs x) (cdf_eval hs) (by simp)

/-- C05 -/
theorem inverts_cdf (hs : 0 < s) : Inverts univ (cdf · (fin loc) (fin s)) (invcdf · (fin loc) (fin s)) := 
  inverts_affine hs (fun x _ => cdf_eval hs x) (fun _ => invcdf_eval hs) (fun _ => F_Q hs)
    (fun _ => Q_F hs)

/-- C05 -/
theorem inverts_sf (hs : 0 < s) : Inverts univ (sf · (fin loc) (fin s)) (invsf · (fin loc) (fin s)) := 
  inverts_affine_compl hs (fun x _ => sf_eval hs x) (fun _ => invsf_eval hs) (fun _ => F_Q hs)
    (fun _ => Q_F hs)

/-- C06 -/
theorem rejects_p : RejectsBadP (invcdf · (fin loc) (fin s)) ∧ RejectsBadP (invsf · (fin loc) (fin s)) := by
  by_cases h : 0 < s
  · constructor <;> intro p hp <;> simp [invcdf, invsf, validateP_bad hp, validate_ok h]
  · constructor <;> intro p hp <;> simp [invcdf, invsf, validateP_bad hp, validate_bad h]

/-- C08 -/
theorem locScale  : LocScaleInvariant (fun x loc s => cdf x  loc s) ∧
    LocScaleInvariant (fun x loc s => sf x  loc s) := 
  ⟨locScale_of_std fun x _ _ hs => cdf_eval hs x,
   locScale_of_std (G := fun z => 1 - F  z) fun x _ _ hs => sf_eval hs x⟩

/-- C08 -/
theorem locScale_pdf : LocScaleDensity @pdf := locScaleDensity_of_std fun x _ _ hs => pdf_eval hs x

/-- C07 -/
theorem validates (x : ℝ) :
    ValidatesExactly (0 < s) (cdf (fin x) (fin loc) (fin s)) ∧
    ValidatesExactly (0 < s) (sf (fin x) (fin loc) (fin s)) ∧
    ValidatesExactly (0 < s) (pdf (fin x) (fin loc) (fin s)) ∧
    ValidatesExactly (0 < s) (logpdf (fin x) (fin loc) (fin s)) := by
  refine ⟨⟨fun h => ⟨_, cdf_eval h x⟩, fun h => ?_⟩, ⟨fun h => ⟨_, sf_eval h x⟩, fun h => ?_⟩,
    ⟨fun h => pdf_returns h x, fun h => ?_⟩, ⟨fun h => logpdf_returns h x, fun h => ?_⟩⟩ <;>
  simp [cdf, sf, pdf, logpdf, validateArgs, validate_bad h]

/-- C04 -/
theorem isLogOf (hs : 0 < s) : IsLogOf ∅ (pdf · (fin loc) (fin s)) (logpdf · (fin loc) (fin s)) :=
  isLogOf_pos (fun _ _ => div_pos (f_pos _) hs) (fun x _ => pdf_eval hs x)
    (fun x _ => logpdf_eval hs x)

/-- C09 -/
theorem isMode (hs : 0 < s) : IsMode ∅ (pdf · (fin loc) (fin s)) (mode (fin loc) (fin s)) := by
  refine isMode_of (m := loc) (by simp [mode, validate_ok hs])
    (fun x _ => pdf_eval hs x) (by simp) fun y _ => ?_
  rw [sub_self, zero_div]
  exact div_le_div_of_nonneg_right (f_le _) hs.le

/-- C11 -/
theorem symmetric (hs : 0 < s) (x : ℝ) :
    sf (fin (loc + x)) (fin loc) (fin s) = cdf (fin (loc - x)) (fin loc) (fin s) ∧
    pdf (fin (loc + x)) (fin loc) (fin s) = pdf (fin (loc - x)) (fin loc) (fin s) := by
  have : (loc - x - loc) / s = -((loc + x - loc) / s) := by ring
  rw [cdf_eval hs, sf_eval hs, pdf_eval hs, pdf_eval hs, this, F_neg, f_neg]
  exact ⟨rfl, rfl⟩

/-- C37 -/
theorem isMean (hs : 0 < s) : IsMean ∅ (pdf · (fin loc) (fin s)) (mean (fin loc) (fin s)) :=
  (hasMV_std.affine loc hs).isMean finite_empty (fun x _ => pdf_eval hs x)
    (by simp [mean, validate_ok hs])

/-- C37 -/
theorem isVar (hs : 0 < s) : IsVar ∅ (pdf · (fin loc) (fin s)) (var (fin loc) (fin s)) := by
  refine (hasMV_std.affine loc hs).isVar finite_empty (fun x _ => pdf_eval hs x) ?_
  simp only [var, validate_ok hs, ok_bind, mp.pi_def, ofNat_def, fin_div _ (two_ne_zero (α := ℝ)), fin_mul,
    mp.ipow_fin, pure_eq_ok]
  congr 2; ring

/-- C37 -/
theorem isEntropy (hs : 0 < s) : IsEntropy ∅ (pdf · (fin loc) (fin s)) (entropy (fin loc) (fin s)) := by
  refine (hasEnt_std.affine loc hs fun x => (f_pos x).le).isEntropy finite_empty (fun x _ => pdf_eval hs x) ?_
  have : 0 < 2 * Real.pi := by have := Real.pi_pos; positivity
  simp [entropy, validate_ok hs, mp.log_pos this, mp.log_pos hs]

/-- C41 at `p = 0`.  Missing: `p = 1`, where the code evaluates `tan` at a rounded `pi/2`; the result is
a large finite number (or complex, when `pi/2` was rounded up), not the infinite end of the support. -/
theorem endPoints_partial (hs : 0 < s) :
    invcdf 0 (fin loc) (fin s) = .ok ninf ∧ invsf 0 (fin loc) (fin s) = .ok pinf := by
  have h : mp.tan (fin 0) = .ok (fin 0) := by rw [mp.tan_fin (by simp)]; simp
  constructor <;>
  simp [invcdf, invsf, validateP_ok, validate_ok hs, fin_div _ (two_ne_zero (α := ℝ)), h, scaleInf_pos hs]

/-- C48 -/
theorem atInfinities (hs : 0 < s) : AtInfinities (cdf · (fin loc) (fin s)) (sf · (fin loc) (fin s)) := by
  have := Real.pi_ne_zero
  have e : 2 / Real.pi * (Real.pi / 2) = 1 := by field_simp
  refine ⟨?_, ?_, ?_, ?_⟩ <;>
  simp [cdf, sf, validateArgs, validate_ok hs, pinf_div_pos hs, ninf_div_pos hs, fin_div _ Real.pi_ne_zero, e]

theorem support_eq (hs : 0 < s) : support (fin loc) (fin s) = .ok (ninf, pinf) := by
  simp [support, validate_ok hs]

/-- C30 -/
theorem nll_spec (hs : 0 < s) : NllIsNegSum univ (logpdf · (fin loc) (fin s)) (nll · (fin loc) (fin s)) := by
  refine nll_of_fsum (fun x _ => logpdf_eval hs x) fun xs _ => ?_
  simp only [nll, validate_ok hs, ok_bind, validateXBounds_none]

/-- Non-vacuity: `loc = 2`, `scale = 3` is admissible; `cdf(2) = 1/2`. -/
example : (0:ℝ) < 3 ∧ cdf (fin 2) (fin 2) (fin 3) = .ok (fin (1 / 2)) := by
  refine ⟨by norm_num, ?_⟩
  have := Real.pi_ne_zero
  rw [cdf_eval (by norm_num)]; simp [F]; field_simp; norm_num

end Mpsci.hypsecant
