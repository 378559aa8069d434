import Verif.Lemmas.Dist.Cosine

/-! Properties of `cosine` (the raised cosine distribution on `[-π, π]`, no parameters). -/

namespace Mpsci.cosine

open Classical Num Spec common Set

/-- C01 -/
theorem complementary : Complementary cdf sf := complementary_of cdf_eval sf_eval

/-- C02 -/
theorem isCdf : IsCdf cdf := isDist.isCdf cdf_eval

/-- C03 -/
theorem isDensity : IsDensity ∅ (Icc (-Real.pi) Real.pi) pdf cdf :=
  isDist.isDensity (fun x _ => pdf_eval x) cdf_eval fun x hx => by
    have : x ≤ -Real.pi ∨ Real.pi ≤ x := by
      by_contra h; push Not at h; exact hx ⟨h.1.le, h.2.le⟩
    simp [f, this]

/-- C04 -/
theorem isLogOf : IsLogOf ∅ pdf logpdf := by
  refine isLogOf_of (P := Ioo (-Real.pi) Real.pi) (g := f) (fun x _ hx => ?_) (fun x _ hx => ?_)
    (fun x _ => pdf_eval x) (fun x _ hx => logpdf_eval hx.1 hx.2) (fun x _ hx => ?_)
  · rw [f, if_neg (by push Not; exact hx)]; exact g_pos hx.1 hx.2
  all_goals
    have : x ≤ -Real.pi ∨ Real.pi ≤ x := by
      by_contra h; push Not at h; exact hx h
    simp [f, logpdf, this]

variable {findroot : (Num → M Num) → Num → M Num}

/-- C05 -/
theorem inverts_cdf (hr : NewtonFinder findroot) : Inverts (Ioo (-Real.pi) Real.pi) cdf (invcdf findroot) := by
  constructor
  · intro p h0 h1
    obtain ⟨x, hx, h, e⟩ := invcdf_spec hr h0 h1
    exact ⟨x, hx, h, by rw [cdf_eval, e]⟩
  · intro x hx
    obtain ⟨-, h0, h1⟩ := F_mem hx
    obtain ⟨y, hy, h, e⟩ := invcdf_spec hr h0 h1
    exact ⟨F x, h0, h1, cdf_eval x, by rw [h, F_inj hy hx e]⟩

/-- C05 -/
theorem inverts_sf (hr : NewtonFinder findroot) : Inverts (Ioo (-Real.pi) Real.pi) sf (invsf findroot) := by
  have hn : ∀ {x : ℝ}, x ∈ Ioo (-Real.pi) Real.pi → -x ∈ Ioo (-Real.pi) Real.pi := fun h =>
    ⟨by linarith [h.2], by linarith [h.1]⟩
  constructor
  · intro p h0 h1
    obtain ⟨x, hx, h, e⟩ := invcdf_spec hr h0 h1
    exact ⟨-x, hn hx, by simp [invsf, h], by rw [sf, neg_fin, neg_neg, cdf_eval, e]⟩
  · intro x hx
    obtain ⟨-, h0, h1⟩ := F_mem (hn hx)
    obtain ⟨y, hy, h, e⟩ := invcdf_spec hr h0 h1
    refine ⟨F (-x), h0, h1, by rw [sf, neg_fin, cdf_eval], ?_⟩
    rw [F_inj hy (hn hx) e] at h
    simp [invsf, h]

/-- C06 -/
theorem rejects_p : RejectsBadP (invcdf findroot) ∧ RejectsBadP (invsf findroot) := by
  constructor <;> intro p hp <;> simp [invcdf, invsf, validateP_bad hp]

/-- C09 -/
theorem isMode : IsMode ∅ pdf mode := by
  refine isMode_of (m := 0) rfl (fun x _ => pdf_eval x) (by simp) fun y _ => ?_
  have hp := Real.pi_pos
  have h0 : f 0 = g 0 := by rw [f, if_neg (by push Not; constructor <;> linarith)]
  rw [h0, f]
  split_ifs
  · rw [g]; simp; positivity
  · rw [g, g, Real.cos_zero]; gcongr; exact Real.cos_le_one y

/-- C11 -/
theorem symmetric (x : ℝ) : sf (fin x) = cdf (fin (-x)) ∧ pdf (fin x) = pdf (fin (-x)) := by
  refine ⟨by rw [sf, neg_fin], ?_⟩
  have : f (-x) = f x := by
    have : (-x ≤ -Real.pi ∨ Real.pi ≤ -x) ↔ (x ≤ -Real.pi ∨ Real.pi ≤ x) := by
      constructor <;> rintro (h | h) <;> first | (left; linarith) | (right; linarith)
    simp only [f, this, g, Real.cos_neg]
  rw [pdf_eval, pdf_eval, this]

theorem hasMV : HasMV f 0 (Real.pi ^ 2 / 3 - 2) where
  int0 := isDist.integrable
  one := isDist.integral_one
  int1 := by simpa using moment1.1
  mean := by simpa using moment1.2
  int2 := moment2.1
  second := by rw [moment2.2]; ring

/-- C37 -/
theorem isMean : IsMean ∅ pdf mean := hasMV.isMean finite_empty (fun x _ => pdf_eval x) rfl

/-- C37 -/
theorem isVar : IsVar ∅ pdf var := by
  refine hasMV.isVar finite_empty (fun x _ => pdf_eval x) ?_
  simp [var, fin_div _ (three_ne_zero (α := ℝ))]

theorem var_pos' : 0 < Real.pi ^ 2 / 3 - 2 := by
  have := Real.pi_gt_three
  nlinarith

/-- C37 -/
theorem isSkewness : IsSkewness ∅ pdf skewness := by
  refine ⟨finite_empty, f, 0, Real.pi ^ 2 / 3 - 2, 0, fun x _ => pdf_eval x, hasMV.int1, hasMV.mean, ?_, ?_, ?_, ?_,
    var_pos', by simp [skewness]⟩
  · simpa using moment2.1
  · simpa using moment2.2
  · simpa using moment3.1
  · simpa using moment3.2

/-- C37 -/
theorem isKurtosis : IsKurtosis ∅ pdf kurtosis := by
  refine ⟨finite_empty, f, 0, Real.pi ^ 2 / 3 - 2, Real.pi ^ 4 / 5 - 4 * Real.pi ^ 2 + 24, fun x _ => pdf_eval x,
    hasMV.int1, hasMV.mean, ?_, ?_, ?_, ?_, var_pos', ?_⟩
  · simpa using moment2.1
  · simpa using moment2.2
  · simpa using moment4.1
  · simpa using moment4.2
  · have h := var_pos'
    have h6 : Real.pi ^ 2 - 6 ≠ 0 := by intro h'; rw [show Real.pi ^ 2 = 6 by linarith] at h; norm_num at h
    simp only [kurtosis, mp.pi_def, mp.ipow_fin, ofNat_def, fin_sub, fin_div _ (pow_ne_zero 2 h6), ok_bind, fin_mul,
      fin_div _ (show (5:ℝ) ≠ 0 by norm_num)]
    congr 2
    rw [show Real.pi ^ 2 / 3 - 2 = (Real.pi ^ 2 - 6) / 3 by ring, div_pow]
    field_simp
    ring

/-- C41 -/
theorem endPoints : EndPoints (invcdf findroot) (support).1 (support).2 ∧
    EndPoints (invsf findroot) (support).2 (support).1 := by
  simp [EndPoints, invcdf, invsf, support, validateP_ok]

/-- C48 -/
theorem atInfinities : AtInfinities cdf sf := by
  simp [AtInfinities, cdf, sf]

/-- Non-vacuity: such a root finder exists, and `cdf(0) = 1/2`. -/
example : (∃ findroot, NewtonFinder findroot) ∧ cdf 0 = .ok (fin (1 / 2)) := by
  refine ⟨exists_newtonFinder, ?_⟩
  have := Real.pi_pos
  rw [zero_def, cdf_eval, F, if_neg (by linarith), if_neg (by linarith), G]; simp

end Mpsci.cosine
