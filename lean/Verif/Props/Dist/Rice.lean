import Verif.Lemmas.Dist.Rice
import Verif.Spec.RootFinder

/-! Properties of `rice`. -/

namespace Mpsci.rice

open Classical Num Spec common Filter Topology Set

variable {ν s : ℝ}

/-- C01, C63 -/
theorem complementary (hν : 0 ≤ ν) (hs : 0 < s) : Complementary (cdf · (fin ν) (fin s)) (sf · (fin ν) (fin s)) :=
  complementary_of (cdf_eval hν hs) (sf_eval hν hs)

/-- C02 -/
theorem isCdf (hν : 0 ≤ ν) (hs : 0 < s) : IsCdf (cdf · (fin ν) (fin s)) := (isDist ν hs).isCdf (cdf_eval hν hs)

theorem pdf_off (hν : 0 ≤ ν) (hs : 0 < s) : RealFnOff ∅ (pdf · (fin ν) (fin s)) (f ν s) := fun x _ => pdf_eval hν hs x

/-- C03, C63 -/
theorem isDensity (hν : 0 ≤ ν) (hs : 0 < s) : IsDensity ∅ (Ici 0) (pdf · (fin ν) (fin s)) (cdf · (fin ν) (fin s)) :=
  (isDist ν hs).isDensity (pdf_off hν hs) (cdf_eval hν hs) fun _ hx => f_nonpos hs (not_le.1 hx).le

/-- C03: the density is positive inside the support that `support` reports and zero outside. -/
theorem support_spec (hν : 0 ≤ ν) (hs : 0 < s) : support (fin ν) (fin s) = .ok (0, pinf) ∧
    (∀ x : ℝ, x < 0 → pdf (fin x) (fin ν) (fin s) = .ok 0) ∧ ∀ x : ℝ, 0 < x → ∃ v : ℝ, 0 < v ∧ pdf (fin x) (fin ν) (fin s) = .ok (fin v) :=
  ⟨by simp [support, validate_ok hν hs], fun x hx => by rw [pdf_eval hν hs, f_nonpos hs hx.le]; rfl, fun x hx => ⟨_, f_pos hs hx, pdf_eval hν hs x⟩⟩

/-- C04, C63 -/
theorem isLogOf (hν : 0 ≤ ν) (hs : 0 < s) : IsLogOf ∅ (pdf · (fin ν) (fin s)) (logpdf · (fin ν) (fin s)) :=
  isLogOf_of (P := Ioi 0) (fun _ _ h => f_pos hs h) (fun _ _ h => f_nonpos hs (not_lt.1 h)) (fun x _ => pdf_eval hν hs x)
    (fun _ _ h => logpdf_pos hν hs h) fun _ _ h => logpdf_nonpos hν hs (not_lt.1 h)

/-- C07 -/
theorem validates (x : ℝ) (n : ℕ) :
    ValidatesExactly (0 ≤ ν ∧ 0 < s) (cdf (fin x) (fin ν) (fin s)) ∧
    ValidatesExactly (0 ≤ ν ∧ 0 < s) (sf (fin x) (fin ν) (fin s)) ∧
    ValidatesExactly (0 ≤ ν ∧ 0 < s) (pdf (fin x) (fin ν) (fin s)) ∧
    ValidatesExactly (0 ≤ ν ∧ 0 < s) (logpdf (fin x) (fin ν) (fin s)) ∧
    ValidatesExactly (0 ≤ ν ∧ 0 < s) (mean (fin ν) (fin s)) ∧
    ValidatesExactly (0 ≤ ν ∧ 0 < s) (var (fin ν) (fin s)) ∧
    ValidatesExactly (0 ≤ ν ∧ 0 < s) (noncentralMoment n (fin ν) (fin s)) := by
  refine ⟨⟨fun h => ⟨_, cdf_eval h.1 h.2 x⟩, fun h => ?_⟩, ⟨fun h => ⟨_, sf_eval h.1 h.2 x⟩, fun h => ?_⟩, ⟨fun h => ⟨_, pdf_eval h.1 h.2 x⟩, fun h => ?_⟩,
    ⟨fun h => ?_, fun h => ?_⟩, ⟨fun h => ⟨_, mean_eval h.1 h.2⟩, fun h => ?_⟩, ⟨fun h => ⟨_, var_eval h.1 h.2⟩, fun h => ?_⟩,
    ⟨fun h => ⟨_, noncentralMoment_eval n h.1 h.2⟩, fun h => ?_⟩⟩
  case refine_4 =>
    rcases le_or_gt x 0 with h0 | h0
    · exact ⟨_, logpdf_nonpos h.1 h.2 h0⟩
    · exact ⟨_, logpdf_pos h.1 h.2 h0⟩
  all_goals simp [cdf, sf, pdf, logpdf, mean, var, noncentralMoment, validate_bad h, validateMomentN, (Int.natCast_nonneg n).not_gt]

/-- C07 -/
theorem validates_rest (h : ¬ (0 ≤ ν ∧ 0 < s)) (findroot : (Num → M Num) → Num → M Num) :
    support (fin ν) (fin s) = .error .valueError ∧ mode findroot (fin ν) (fin s) = .error .valueError := by
  simp [support, mode, validate_bad h]

/-- C08: `sigma` is a scale parameter if `nu` is scaled with it. -/
theorem scales (hν : 0 ≤ ν) (hs : 0 < s) (x : ℝ) :
    cdf (fin x) (fin ν) (fin s) = cdf (fin (x / s)) (fin (ν / s)) 1 ∧ sf (fin x) (fin ν) (fin s) = sf (fin (x / s)) (fin (ν / s)) 1 ∧
    pdf (fin x) (fin ν) (fin s) = (do let v ← pdf (fin (x / s)) (fin (ν / s)) 1; v /. fin s) := by
  have h : 0 ≤ ν / s := div_nonneg hν hs.le
  rw [one_def, cdf_eval hν hs, cdf_eval h one_pos, sf_eval hν hs, sf_eval h one_pos, pdf_eval hν hs, pdf_eval h one_pos, F, F, f, f, ok_bind, fin_div _ hs.ne']
  simp

/-- C63, C09: The value of `mode`'s equation has the sign of the derivative of `pdf`: it has exactly one positive zero, and `pdf` is greatest there. -/
theorem mode_equation (hν : 0 ≤ ν) (hs : 0 < s) : ∃ m : ℝ, 0 < m ∧
    (∀ x : ℝ, 0 < x → (modeEq (fin ν) (fin s) (fin (ν / s ^ 2)) (fin x) = .ok 0 ↔ x = m)) ∧
    ∀ y : ℝ, ∃ v w : ℝ, pdf (fin m) (fin ν) (fin s) = .ok (fin v) ∧ pdf (fin y) (fin ν) (fin s) = .ok (fin w) ∧ w ≤ v := by
  obtain ⟨m, hm, h0⟩ := exists_root hν hs
  refine ⟨m, hm, fun x hx => ?_, fun y => ⟨_, _, pdf_eval hν hs m, pdf_eval hν hs y, ?_⟩⟩
  · rw [modeEq_eval hν hs hx]
    constructor
    · intro h
      have h1 : x ^ 2 * eqR ν s x = 0 := Num.fin.inj (Except.ok.inj h)
      have h2 : eqR ν s x = 0 := (mul_eq_zero.1 h1).resolve_left (by positivity)
      exact (eqR_anti hν hs).injOn hx hm (h2.trans h0.symm)
    · rintro rfl; rw [h0, mul_zero]; rfl
  · rcases le_or_gt y 0 with h | h
    · rw [f_nonpos hs h]; exact (f_pos hs hm).le
    · rw [f_eq hs h, f_eq hs hm]
      exact div_le_div_of_nonneg_right (den_le hν hs hm h0 h) (by positivity)

/-- C09: whenever the root search returns a positive number that solves the equation, it is the mode.  Missing: the equation is even, so that a
root finder that only promises to return a zero could also return minus the mode. -/
theorem isMode_partial (findroot : (Num → M Num) → Num → M Num) (hf : SoundFinder findroot) (hν : 0 ≤ ν) (hs : 0 < s) {m : ℝ} (hm : 0 < m)
    (h : mode findroot (fin ν) (fin s) = .ok (fin m)) : IsMode ∅ (pdf · (fin ν) (fin s)) (mode findroot (fin ν) (fin s)) := by
  obtain ⟨m', hm', h1, h2⟩ := mode_equation hν hs
  have h3 := h
  simp only [mode, validate_ok hν hs, ok_bind, mp.ipow_fin, fin_div _ (show s ^ 2 ≠ 0 by positivity), mean_eval hν hs] at h3
  obtain rfl := (h1 m hm).1 (hf _ _ _ h3)
  obtain ⟨v, _, hv, _⟩ := h2 0
  refine ⟨m, v, h, hv, fun y _ => ?_⟩
  obtain ⟨v', w, hv', hw, hle⟩ := h2 y
  rw [Num.fin.inj (Except.ok.inj (hv.symm.trans hv'))]
  exact ⟨w, hw, hle⟩

/-- C12, C63: the square of `x/sigma` has a noncentral chi-square distribution with two degrees of freedom. -/
theorem eq_ncx2 (hν : 0 ≤ ν) (hs : 0 < s) {x : ℝ} (hx : 0 ≤ x) :
    cdf (fin x) (fin ν) (fin s) = ncx2.cdf (fin ((x / s) ^ 2)) 2 (fin ((ν / s) ^ 2)) ∧
    sf (fin x) (fin ν) (fin s) = ncx2.sf (fin ((x / s) ^ 2)) 2 (fin ((ν / s) ^ 2)) := by
  have e : F ν s x = ncx2.F 2 ((ν / s) ^ 2) ((x / s) ^ 2) := by
    rw [F, ncx2.F, div_self two_ne]
    rcases hx.eq_or_lt with rfl | hx
    · rw [zero_div, mq.F_nonpos le_rfl, ncg.C_nonpos (by norm_num)]
    · rw [mq.F_pos (div_pos hx hs)]
  simp only [ofNat_def]
  rw [cdf_eval hν hs, sf_eval hν hs, ncx2.cdf_eval two_pos (by positivity), ncx2.sf_eval two_pos (by positivity), e]
  exact ⟨rfl, rfl⟩

/-- C37, C63 -/
theorem isMean (hν : 0 ≤ ν) (hs : 0 < s) : IsMean ∅ (pdf · (fin ν) (fin s)) (mean (fin ν) (fin s)) :=
  (hasMV ν hs).isMean finite_empty (pdf_off hν hs) (mean_eval hν hs)
/-- C37, C63 -/
theorem isVar (hν : 0 ≤ ν) (hs : 0 < s) : IsVar ∅ (pdf · (fin ν) (fin s)) (var (fin ν) (fin s)) :=
  (hasMV ν hs).isVar finite_empty (pdf_off hν hs) (var_eval hν hs)

/-- C37, C50, C63 -/
theorem isMoment (hν : 0 ≤ ν) (hs : 0 < s) (n : ℕ) : IsMoment ∅ (pdf · (fin ν) (fin s)) n (noncentralMoment n (fin ν) (fin s)) :=
  ⟨finite_empty, f ν s, m n ν s, pdf_off hν hs, noncentralMoment_eval n hν hs, (moment n ν hs).1, (moment n ν hs).2⟩

/-- C50 -/
theorem moment_mean_var (hν : 0 ≤ ν) (hs : 0 < s) : mean (fin ν) (fin s) = noncentralMoment 1 (fin ν) (fin s) ∧
    noncentralMoment 0 (fin ν) (fin s) = .ok 1 ∧
    ∃ m1 m2 : ℝ, noncentralMoment 1 (fin ν) (fin s) = .ok (fin m1) ∧ noncentralMoment 2 (fin ν) (fin s) = .ok (fin m2) ∧
      var (fin ν) (fin s) = .ok (fin (m2 - m1 ^ 2)) :=
  ⟨(mean_eval hν hs).trans (noncentralMoment_eval 1 hν hs).symm, by simp [noncentralMoment, validateMomentN, validate_ok hν hs],
    _, _, noncentralMoment_eval 1 hν hs, noncentralMoment_eval 2 hν hs, var_eval hν hs⟩

/-- C50: a negative order is rejected. -/
theorem moment_negative {n : ℤ} (hn : n < 0) (ν s : Num) : noncentralMoment n ν s = .error .valueError := by
  simp [noncentralMoment, validateMomentN, hn]

/-- C48 -/
theorem atInfinities (hν : 0 ≤ ν) (hs : 0 < s) : AtInfinities (cdf · (fin ν) (fin s)) (sf · (fin ν) (fin s)) := by
  have e1 : mp.ipow pinf 2 = pinf := by simp [mp.ipow, one_def, scaleInf]
  refine ⟨by simp [cdf, validate_ok hν hs], ?_, by simp [sf, validate_ok hν hs], ?_⟩
  · simp only [cdf, validate_ok hν hs, ok_bind, zero_def, pinf_le_fin, if_false, fin_div _ hs.ne', pinf_div_pos hs]
    rcases hν.eq_or_lt with rfl | hν
    · simp only [fun_.cmarcumq, zero_def, one_def, zero_div, fin_eq, if_true, e1, neg_pinf, ofNat_def, ninf_div_pos two_pos, ok_bind, mp.expm1_ninf, neg_fin,
        pure_eq_ok, neg_neg]
    · exact mq.cmarcumq_pinf one_pos (div_pos hν hs)
  · simp only [sf, validate_ok hν hs, ok_bind, zero_def, pinf_le_fin, if_false, fin_div _ hs.ne', pinf_div_pos hs]
    rcases hν.eq_or_lt with rfl | hν
    · simp only [fun_.marcumq, zero_def, one_def, zero_div, fin_eq, if_true, e1, neg_pinf, ofNat_def, ninf_div_pos two_pos, ok_bind, mp.exp_ninf, pure_eq_ok]
    · exact mq.marcumq_pinf (div_pos hν hs)

/-- Non-vacuity: `nu = 3`, `sigma = 2`. -/
example : ∃ m v : ℝ, 0 < m ∧ 0 < v ∧ modeEq 3 2 (fin (3 / 2 ^ 2)) (fin m) = .ok 0 ∧ pdf (fin m) 3 2 = .ok (fin v) := by
  obtain ⟨m, hm, h1, _⟩ := mode_equation (ν := 3) (s := 2) (by norm_num) (by norm_num)
  exact ⟨m, _, hm, f_pos two_pos hm, (h1 m hm).2 rfl, pdf_eval (by norm_num) two_pos m⟩

end Mpsci.rice
