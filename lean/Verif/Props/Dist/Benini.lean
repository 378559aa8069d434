import Verif.Lemmas.Dist.Benini

/-! Properties of `benini`. -/

namespace Mpsci.benini

open Classical Num Spec common Filter Topology Set 

variable {a b s : ℝ}

/-- C01 -/
theorem complementary (ha : 0 < a) (hb : 0 < b) (hs : 0 < s) : Complementary (cdf · (fin a) (fin b) (fin s)) (sf · (fin a) (fin b) (fin s)) :=
  complementary_of (cdf_eval ha hb hs) (sf_eval ha hb hs)

/-- C02 -/
theorem isCdf (ha : 0 < a) (hb : 0 < b) (hs : 0 < s) : IsCdf (cdf · (fin a) (fin b) (fin s)) := (isDist ha hb hs).isCdf (cdf_eval ha hb hs)

/-- C03 -/
theorem isDensity (ha : 0 < a) (hb : 0 < b) (hs : 0 < s) : IsDensity ∅ (Ici s) (pdf · (fin a) (fin b) (fin s)) (cdf · (fin a) (fin b) (fin s)) :=
  (isDist ha hb hs).isDensity (fun x hx => pdf_eval ha hb hs x) (cdf_eval ha hb hs) (f_zero ha hb hs)

/-- C05 -/
theorem inverts_cdf (ha : 0 < a) (hb : 0 < b) (hs : 0 < s) : Inverts (Ioi s) (cdf · (fin a) (fin b) (fin s)) (invcdf · (fin a) (fin b) (fin s)) := by
  rw [← show (fun x => x / s) ⁻¹' Ioi 1 = Ioi s by simp [preimage_scale_Ioi hs]]
  exact inverts_scale hs (fun x _ => cdf_eval ha hb hs x) (fun _ => invcdf_eval ha hb hs) (fun _ => F_Q ha hb hs)
    (fun _ => Q_F ha hb hs)

/-- C05 -/
theorem inverts_sf (ha : 0 < a) (hb : 0 < b) (hs : 0 < s) : Inverts (Ioi s) (sf · (fin a) (fin b) (fin s)) (invsf · (fin a) (fin b) (fin s)) := by
  rw [← show (fun x => x / s) ⁻¹' Ioi 1 = Ioi s by simp [preimage_scale_Ioi hs]]
  exact inverts_scale_compl hs (fun x _ => sf_eval ha hb hs x) (fun _ => invsf_eval ha hb hs) (fun _ => F_Q ha hb hs)
    (fun _ => Q_F ha hb hs)

/-- C06 -/
theorem rejects_p : RejectsBadP (invcdf · (fin a) (fin b) (fin s)) ∧ RejectsBadP (invsf · (fin a) (fin b) (fin s)) := by
  by_cases h : 0 < a ∧ 0 < b ∧ 0 < s
  · constructor <;> intro p hp <;> simp [invcdf, invsf, validateP_bad hp, validate_ok h.1 h.2.1 h.2.2]
  · constructor <;> intro p hp <;> simp [invcdf, invsf, validateP_bad hp, validate_bad h]

/-- C07 -/
theorem validates (x : ℝ) :
    ValidatesExactly (0 < a ∧ 0 < b ∧ 0 < s) (cdf (fin x) (fin a) (fin b) (fin s)) ∧
    ValidatesExactly (0 < a ∧ 0 < b ∧ 0 < s) (sf (fin x) (fin a) (fin b) (fin s)) ∧
    ValidatesExactly (0 < a ∧ 0 < b ∧ 0 < s) (pdf (fin x) (fin a) (fin b) (fin s)) ∧
    ValidatesExactly (0 < a ∧ 0 < b ∧ 0 < s) (logpdf (fin x) (fin a) (fin b) (fin s)) := by
  refine ⟨⟨fun h => ⟨_, cdf_eval h.1 h.2.1 h.2.2 x⟩, fun h => ?_⟩, ⟨fun h => ⟨_, sf_eval h.1 h.2.1 h.2.2 x⟩, fun h => ?_⟩,
    ⟨fun h => pdf_returns h.1 h.2.1 h.2.2 x, fun h => ?_⟩, ⟨fun h => logpdf_returns h.1 h.2.1 h.2.2 x, fun h => ?_⟩⟩ <;>
  simp [cdf, sf, pdf, logpdf, validate_bad h]

/-- C08 -/
theorem scale (ha : 0 < a) (hb : 0 < b) : ScaleInvariant (fun x s => cdf x (fin a) (fin b) s) ∧
    ScaleInvariant (fun x s => sf x (fin a) (fin b) s) := 
  ⟨scale_of_std fun x _ hs => cdf_eval ha hb hs x,
   scale_of_std (G := fun z => 1 - F a b z) fun x _ hs => sf_eval ha hb hs x⟩

/-- C08 -/
theorem scale_pdf (ha : 0 < a) (hb : 0 < b) : ScaleDensity (fun x s => pdf x (fin a) (fin b) s) :=
  scaleDensity_of_std fun x _ hs => pdf_eval ha hb hs x

/-- C04 -/
theorem isLogOf (ha : 0 < a) (hb : 0 < b) (hs : 0 < s) : IsLogOf ∅ (pdf · (fin a) (fin b) (fin s)) (logpdf · (fin a) (fin b) (fin s)) :=
  isLogOf_of (P := Ici s)
    (fun _ _ hx => div_pos (f_pos ha hb (by rw [← lt_scale hs]; exact not_lt.2 hx)) hs)
    (fun x _ hx => f_zero ha hb hs x hx)
    (fun x _ => pdf_eval ha hb hs x) (fun x _ hx => logpdf_ge ha hb hs (not_lt.2 hx))
    (fun x _ hx => logpdf_lt ha hb hs (not_le.1 hx))

/-- C09 -/
theorem isMode (ha : 0 < a) (hb : 0 < b) (hs : 0 < s) : IsMode ∅ (pdf · (fin a) (fin b) (fin s)) (mode (fin a) (fin b) (fin s)) := by
  rcases le_or_gt b (a * (a + 1) / 2) with h | h
  · refine isMode_of (m := s) (by simp [mode, validate_ok ha hb hs, h])
      (fun x _ => pdf_eval ha hb hs x) (by simp) fun y _ => ?_
    have := f_le_low ha hb h (y / s)
    rw [div_self hs.ne']; gcongr
  · have h4 : 4 * b ≠ 0 := by positivity
    refine isMode_of (m := s * Real.exp ((-2 * a + Real.sqrt (8 * b + 1) - 1) / (4 * b)))
      (by simp [mode, validate_ok ha hb hs, h.not_ge,
        mp.sqrt_nonneg (by positivity : 0 ≤ 8 * b + 1), fin_div _ h4])
      (fun x _ => pdf_eval ha hb hs x) (by simp) fun y _ => ?_
    have := f_le_high ha hb h (y / s)
    rw [mul_div_cancel_left₀ _ hs.ne']; gcongr

/-- C10 -/
theorem isMedian (ha : 0 < a) (hb : 0 < b) (hs : 0 < s) : IsMedian (cdf · (fin a) (fin b) (fin s)) (median (fin a) (fin b) (fin s)) := by
  refine isMedian_of (m := s * Q a b (1 / 2))
    (by rw [median, invcdf_eval ha hb hs (by norm_num) (by norm_num)]) ?_
  rw [cdf_eval ha hb hs, mul_div_cancel_left₀ _ hs.ne', (F_Q ha hb hs (by norm_num) (by norm_num)).2]

/-- C04, C51: `logcdf` and `logsf` are the logarithms of `cdf` and `sf`. -/
theorem isLogOf_cdf (ha : 0 < a) (hb : 0 < b) (hs : 0 < s) :
    IsLogOf ∅ (cdf · (fin a) (fin b) (fin s)) (logcdf · (fin a) (fin b) (fin s)) ∧ IsLogOf ∅ (sf · (fin a) (fin b) (fin s)) (logsf · (fin a) (fin b) (fin s)) := by
  obtain ⟨m, hmed⟩ : ∃ m, median (fin a) (fin b) (fin s) = .ok (fin m) :=
    ⟨_, invcdf_eval ha hb hs (by norm_num) (by norm_num)⟩
  constructor
  · intro x _
    rcases le_or_gt (x / s) 1 with h | h
    · exact ⟨0, le_rfl, by simp [cdf_eval ha hb hs, F, h],
        by simp [logcdf, validate_ok ha hb hs, le_scale hs, h]⟩
    · obtain ⟨h0, h1, -⟩ := Q_F ha hb hs (z := x / s) h
      refine ⟨F a b (x / s), h0.le, cdf_eval ha hb hs x, ?_⟩
      by_cases hm : x < m
      · simp [logcdf, validate_ok ha hb hs, le_scale hs, h.not_ge, hmed, hm, cdf_eval ha hb hs,
          mp.log_pos h0, h0.ne']
      · simp [logcdf, validate_ok ha hb hs, le_scale hs, h.not_ge, hmed, hm, sf_eval ha hb hs,
          mp.log1p_pos (by linarith : -1 < F a b (x / s) - 1), h0.ne']
  · intro x _
    rcases le_or_gt (x / s) 1 with h | h
    · exact ⟨1, zero_le_one, by simp [sf_eval ha hb hs, F, h],
        by simp [logsf, validate_ok ha hb hs, le_scale hs, h]⟩
    · obtain ⟨h0, h1, -⟩ := Q_F ha hb hs (z := x / s) h
      have h2 : 1 - F a b (x / s) ≠ 0 := by linarith
      refine ⟨1 - F a b (x / s), by linarith, sf_eval ha hb hs x, ?_⟩
      by_cases hm : x < m
      · simp [logsf, validate_ok ha hb hs, le_scale hs, h.not_ge, hmed, hm, cdf_eval ha hb hs,
          mp_log1p_neg h1, h2]
      · rw [if_neg h2]
        have hz : 0 < x / s := by linarith
        simp [logsf, validate_ok ha hb hs, le_scale hs, h.not_ge, hmed, hm, mp.log_pos hz,
          fin_div _ hs.ne', F, H]

/-- C41, the part that holds: the lower end of the support. -/
theorem endPoints_partial (ha : 0 < a) (hb : 0 < b) (hs : 0 < s) :
    invcdf 0 (fin a) (fin b) (fin s) = .ok (fin s) ∧ invsf 1 (fin a) (fin b) (fin s) = .ok (fin s) := by
  have ha2 : a ^ 2 ≠ 0 := by positivity
  have h2b : 2 * b ≠ 0 := by positivity
  constructor <;> simp [invcdf, invsf, validateP_ok, validate_ok ha hb hs, fin_div _ ha2,
    fin_div _ h2b, mp.sqrt_nonneg zero_le_one, fin_div _ (by norm_num : (1:ℝ) + 1 ≠ 0)]

/-- C41 fails at the upper end: `invcdf(1)` and `invsf(0)` are nan (`inf/inf`) instead of `+inf`,
for all parameters. -/
theorem endPoints_nan (ha : 0 < a) (hb : 0 < b) (hs : 0 < s) :
    invcdf 1 (fin a) (fin b) (fin s) = .ok nan ∧ invsf 0 (fin a) (fin b) (fin s) = .ok nan := by
  have ha2 : a ^ 2 ≠ 0 := by positivity
  have h2b : 2 * b ≠ 0 := by positivity
  have h0 : -(4 * b) / a ^ 2 < 0 := div_neg_of_neg_of_pos (by linarith) (by positivity)
  have hm := scaleInf_neg h0
  constructor <;> simp [invcdf, invsf, validateP_ok, validate_ok ha hb hs, fin_div _ ha2,
    fin_div _ h2b, hm, mp.sqrt, show ninf /. pinf = .ok nan from rfl]

/-- C48 -/
theorem atInfinities (ha : 0 < a) (hb : 0 < b) (hs : 0 < s) :
    AtInfinities (cdf · (fin a) (fin b) (fin s)) (sf · (fin a) (fin b) (fin s)) := by
  have h := scaleInf_pos hb
  refine ⟨?_, ?_, ?_, ?_⟩ <;>
  simp [cdf, sf, validate_ok ha hb hs, pinf_div_pos hs, h]

/-- C41 -/
theorem support_eq (ha : 0 < a) (hb : 0 < b) (hs : 0 < s) : support (fin a) (fin b) (fin s) = .ok (fin s, pinf) := by
  simp [support, validate_ok ha hb hs]

/-- Non-vacuity: `alpha = 1`, `beta = 2`, `scale = 3`: `sf(3e) = exp(-3)`. -/
example : (0:ℝ) < 1 ∧ (0:ℝ) < 2 ∧ (0:ℝ) < 3 ∧
    sf (fin (3 * Real.exp 1)) (fin 1) (fin 2) (fin 3) = .ok (fin (Real.exp (-3))) := by
  refine ⟨by norm_num, by norm_num, by norm_num, ?_⟩
  have h : 3 * Real.exp 1 / 3 = Real.exp 1 := by field_simp
  have h1 : ¬ Real.exp 1 ≤ 1 := by simp
  rw [sf_eval (by norm_num) (by norm_num) (by norm_num), h, F, if_neg h1, Real.log_exp, H]
  norm_num

end Mpsci.benini
