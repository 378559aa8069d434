import Verif.Lemmas.Dist.Exponweib

/-! Properties of `exponweib`. -/

namespace Mpsci.exponweib

open Classical Num Spec common Filter Topology Set 

variable {a c s : ℝ}

/-- C01 -/
theorem complementary (ha : 0 < a) (hc : 0 < c) (hs : 0 < s) : Complementary (cdf · (fin a) (fin c) (fin s)) (sf · (fin a) (fin c) (fin s)) :=
  complementary_of (cdf_eval ha hc hs) (sf_eval ha hc hs)

/-- C02 -/
theorem isCdf (ha : 0 < a) (hc : 0 < c) (hs : 0 < s) : IsCdf (cdf · (fin a) (fin c) (fin s)) := (isDist ha hc hs).isCdf (cdf_eval ha hc hs)

/-- C03 -/
theorem isDensity (ha : 0 < a) (hc : 0 < c) (hs : 0 < s) : IsDensity {0} (Ici 0) (pdf · (fin a) (fin c) (fin s)) (cdf · (fin a) (fin c) (fin s)) :=
  (isDist ha hc hs).isDensity (fun x hx => pdf_eval ha hc hs x hx) (cdf_eval ha hc hs) (f_zero ha hc hs)

/-- C05 -/
theorem inverts_cdf (ha : 0 < a) (hc : 0 < c) (hs : 0 < s) : Inverts (Ioi 0) (cdf · (fin a) (fin c) (fin s)) (invcdf · (fin a) (fin c) (fin s)) := by
  rw [← preimage_scale_Ioi_zero hs]
  exact inverts_scale hs (fun x _ => cdf_eval ha hc hs x) (fun _ => invcdf_eval ha hc hs) (fun _ => F_Q ha hc hs)
    (fun _ => Q_F ha hc hs)

/-- C05 -/
theorem inverts_sf (ha : 0 < a) (hc : 0 < c) (hs : 0 < s) : Inverts (Ioi 0) (sf · (fin a) (fin c) (fin s)) (invsf · (fin a) (fin c) (fin s)) := by
  rw [← preimage_scale_Ioi_zero hs]
  exact inverts_scale_compl hs (fun x _ => sf_eval ha hc hs x) (fun _ => invsf_eval ha hc hs) (fun _ => F_Q ha hc hs)
    (fun _ => Q_F ha hc hs)

/-- C06 -/
theorem rejects_p : RejectsBadP (invcdf · (fin a) (fin c) (fin s)) ∧ RejectsBadP (invsf · (fin a) (fin c) (fin s)) := by
  by_cases h : 0 < a ∧ 0 < c ∧ 0 < s
  · constructor <;> intro p hp <;> simp [invcdf, invsf, validateP_bad hp, validate_ok h.1 h.2.1 h.2.2]
  · constructor <;> intro p hp <;> simp [invcdf, invsf, validateP_bad hp, validate_bad h]

/-- C08 -/
theorem scale (ha : 0 < a) (hc : 0 < c) : ScaleInvariant (fun x s => cdf x (fin a) (fin c) s) ∧
    ScaleInvariant (fun x s => sf x (fin a) (fin c) s) := 
  ⟨scale_of_std fun x _ hs => cdf_eval ha hc hs x,
   scale_of_std (G := fun z => 1 - F a c z) fun x _ hs => sf_eval ha hc hs x⟩

/-- C07 `cdf` and `sf` accept exactly the valid parameters, and so do `pdf` and `logpdf` at every `x ≠ 0`. -/
theorem validates (x : ℝ) :
    ValidatesExactly (0 < a ∧ 0 < c ∧ 0 < s) (cdf (fin x) (fin a) (fin c) (fin s)) ∧
    ValidatesExactly (0 < a ∧ 0 < c ∧ 0 < s) (sf (fin x) (fin a) (fin c) (fin s)) ∧
    (x ≠ 0 → ValidatesExactly (0 < a ∧ 0 < c ∧ 0 < s) (pdf (fin x) (fin a) (fin c) (fin s))) ∧
    (x ≠ 0 → ValidatesExactly (0 < a ∧ 0 < c ∧ 0 < s) (logpdf (fin x) (fin a) (fin c) (fin s))) := by
  refine ⟨⟨fun h => ⟨_, cdf_eval h.1 h.2.1 h.2.2 x⟩, fun h => ?_⟩,
    ⟨fun h => ⟨_, sf_eval h.1 h.2.1 h.2.2 x⟩, fun h => ?_⟩,
    fun hx => ⟨fun h => ⟨_, pdf_eval h.1 h.2.1 h.2.2 x hx⟩, fun h => ?_⟩,
    fun hx => ⟨fun h => ?_, fun h => ?_⟩⟩
  · simp [cdf, validate_bad h]
  · simp [sf, validate_bad h]
  · simp [pdf, validate_bad h]
  · rcases lt_or_gt_of_ne hx with h' | h'
    · exact ⟨_, logpdf_neg h.1 h.2.1 h.2.2 h'⟩
    · exact ⟨_, logpdf_pos h.1 h.2.1 h.2.2 h'⟩
  · simp [logpdf, validate_bad h]

/-- C07, C03 fail at the left end of the support: for `a = 1/2`, `c = 2` the density tends to the finite
value `1/scale` at 0, but `pdf(0)` raises ZeroDivisionError. -/
theorem pdf_zero_raises : pdf 0 (fin (1 / 2)) (fin 2) (fin 1) = .error .zeroDivision := by
  have h := mp.power_zero_neg_half (y := 1 / 2 - 1) (k := -1) (by norm_num) (by norm_num)
  simp only [pdf, validate_ok (show (0:ℝ) < 1 / 2 by norm_num) two_pos one_pos, ok_bind, zero_def, one_def,
    fin_lt, lt_irrefl, if_false, fin_div _ one_ne_zero, zero_div, fin_sub,
    mp.power_zero_pos (show (0:ℝ) < 2 - 1 by norm_num), mp.power_zero_pos two_pos, neg_fin, neg_zero, mp.expm1_fin,
    Real.exp_zero, sub_self, h]
  simp [fin_div _ one_ne_zero]

/-- C08 -/
theorem scale_pdf (ha : 0 < a) (hc : 0 < c) {x : ℝ} (hx : x ≠ 0) (hs : 0 < s) :
    ∃ v : ℝ, pdf (fin (x / s)) (fin a) (fin c) 1 = .ok (fin v) ∧ pdf (fin x) (fin a) (fin c) (fin s) = .ok (fin (v / s)) := by
  refine ⟨f a c (x / s), ?_, pdf_eval ha hc hs x hx⟩
  rw [one_def, pdf_eval ha hc one_pos _ (by simpa using ⟨hx, hs.ne'⟩)]
  simp

/-- C04 away from 0. -/
theorem isLogOf_interior (ha : 0 < a) (hc : 0 < c) (hs : 0 < s) : IsLogOf {0} (pdf · (fin a) (fin c) (fin s)) (logpdf · (fin a) (fin c) (fin s)) :=
  isLogOf_of (P := Ici 0) (fun x hE hx => div_pos (f_pos ha hc (div_pos (lt_of_le_of_ne hx (Ne.symm hE)) hs)) hs)
    (fun x _ hx => f_zero ha hc hs x hx)
    (fun x hE => pdf_eval ha hc hs x hE) (fun x hE hx => logpdf_pos ha hc hs (lt_of_le_of_ne hx (Ne.symm hE)))
    (fun x _ hx => logpdf_neg ha hc hs (not_le.1 hx))

/-- C04, C42 fails at 0: for `a = c = scale = 1` (the exponential distribution), `pdf(0) = 1` but
`logpdf(0)` is nan. -/
theorem isLogOf_fails : pdf 0 (fin 1) (fin 1) (fin 1) = .ok 1 ∧ logpdf 0 (fin 1) (fin 1) (fin 1) = .ok nan := by
  constructor
  · simp [pdf, validate_ok one_pos one_pos one_pos, fin_div _ one_ne_zero, mp.power_zero_pos one_pos]
  · simp [logpdf, validate_ok one_pos one_pos one_pos, fin_div _ one_ne_zero, mp.power_zero_pos one_pos,
      mp.log_pos one_pos, scaleInf]

/-- C41 -/
theorem endPoints (ha : 0 < a) (hc : 0 < c) (hs : 0 < s) :
    EndPoints (invcdf · (fin a) (fin c) (fin s)) 0 pinf ∧ EndPoints (invsf · (fin a) (fin c) (fin s)) pinf 0 := by
  have h1 := mp.power_zero_pos (one_div_pos.2 ha)
  have h2 := mp.power_zero_pos (one_div_pos.2 hc)
  have h3 : mp.power pinf (fin (1 / c)) = .ok pinf := by simp [mp.power, hc]
  have h4 : ninf /. fin a = .ok ninf := ninf_div_pos ha
  refine ⟨⟨?_, ?_⟩, ⟨?_, ?_⟩⟩ <;>
    simp only [invcdf, invsf, validateP_ok, validate_ok ha hc hs, zero_def, one_def, le_refl, zero_le_one, ok_bind,
      fin_div _ ha.ne', fin_div _ hc.ne', h1, h2, neg_fin, neg_zero, mp.log1p_pos (show (-1:ℝ) < 0 by norm_num), add_zero,
      Real.log_one, fin_mul, mul_zero, pure_eq_ok, mp.power_pos one_pos, Real.one_rpow, mp.log1p_neg_one, neg_ninf, h3,
      fin_mul_pinf, scaleInf_pos hs, zero_div, mp.expm1_fin, Real.exp_zero, sub_self, mp.log_zero, h4,
      mp.expm1_ninf, neg_neg, mp.log_pos one_pos]

/-- C48 -/
theorem atInfinities (ha : 0 < a) (hc : 0 < c) (hs : 0 < s) : AtInfinities (cdf · (fin a) (fin c) (fin s)) (sf · (fin a) (fin c) (fin s)) := by
  refine ⟨?_, ?_, ?_, ?_⟩ <;>
  simp [cdf, sf, validate_ok ha hc hs, pinf_div_pos hs, mp.power, mp.powm1, hc]

theorem support_eq (ha : 0 < a) (hc : 0 < c) (hs : 0 < s) : support (fin a) (fin c) (fin s) = .ok (0, pinf) := by
  simp [support, validate_ok ha hc hs]

/-- Non-vacuity: `a = 2`, `c = 1`, `scale = 3`: `cdf(3 log 2) = 1/4`. -/
example : (0:ℝ) < 2 ∧ (0:ℝ) < 1 ∧ (0:ℝ) < 3 ∧ cdf (fin (3 * Real.log 2)) (fin 2) (fin 1) (fin 3) = .ok (fin (1 / 4)) := by
  refine ⟨by norm_num, by norm_num, by norm_num, ?_⟩
  have h : (0:ℝ) < Real.log 2 := Real.log_pos (by norm_num)
  rw [cdf_eval (by norm_num) (by norm_num) (by norm_num), mul_div_cancel_left₀ _ three_ne_zero, F,
    if_neg h.le.not_gt, w, Real.rpow_one, Real.exp_neg, Real.exp_log (by norm_num),
    show (2:ℝ) = ((2:ℕ):ℝ) by norm_num, Real.rpow_natCast]
  norm_num

end Mpsci.exponweib
