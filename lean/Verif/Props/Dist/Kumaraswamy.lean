import Verif.Lemmas.Dist.Kumaraswamy

/-! Properties of `kumaraswamy`. -/

namespace Mpsci.kumaraswamy

open Classical Num Spec common Filter Topology Set 

variable {a b : ℝ}

/-- C01 -/
theorem complementary (ha : 0 < a) (hb : 0 < b) : Complementary (cdf · (fin a) (fin b)) (sf · (fin a) (fin b)) :=
  complementary_of (cdf_eval ha hb) (sf_eval ha hb)

/-- C02 -/
theorem isCdf (ha : 0 < a) (hb : 0 < b) : IsCdf (cdf · (fin a) (fin b)) := (isDist ha hb).isCdf (cdf_eval ha hb)

/-- C03 -/
theorem isDensity (ha : 0 < a) (hb : 0 < b) : IsDensity (Ends a b) (Icc 0 1) (pdf · (fin a) (fin b)) (cdf · (fin a) (fin b)) :=
  (isDist ha hb).isDensity (fun x hx => pdf_eval ha hb x hx) (cdf_eval ha hb) (f_zero ha hb)

/-- C05 -/
theorem inverts_cdf (ha : 0 < a) (hb : 0 < b) : Inverts (Ioo 0 1) (cdf · (fin a) (fin b)) (invcdf · (fin a) (fin b)) := 
  inverts_of (fun x _ => cdf_eval ha hb x) (fun _ => invcdf_eval ha hb) (fun _ => F_Q ha hb)
    (fun _ => Q_F ha hb)

/-- C05 -/
theorem inverts_sf (ha : 0 < a) (hb : 0 < b) : Inverts (Ioo 0 1) (sf · (fin a) (fin b)) (invsf · (fin a) (fin b)) := 
  inverts_compl (fun x _ => sf_eval ha hb x) (fun _ => invsf_eval ha hb) (fun _ => F_Q ha hb)
    (fun _ => Q_F ha hb)

/-- C06 -/
theorem rejects_p : RejectsBadP (invcdf · (fin a) (fin b)) ∧ RejectsBadP (invsf · (fin a) (fin b)) := by
  by_cases h : 0 < a ∧ 0 < b
  · constructor <;> intro p hp <;> simp [invcdf, invsf, validateP_bad hp, validate_ok h.1 h.2]
  · constructor <;> intro p hp <;> simp [invcdf, invsf, validateP_bad hp, validate_bad h]

/-- C07 -/
theorem validates (x : ℝ) :
    ValidatesExactly (0 < a ∧ 0 < b) (cdf (fin x) (fin a) (fin b)) ∧
    ValidatesExactly (0 < a ∧ 0 < b) (sf (fin x) (fin a) (fin b)) ∧
    ValidatesExactly (0 < a ∧ 0 < b) (pdf (fin x) (fin a) (fin b)) ∧
    ValidatesExactly (0 < a ∧ 0 < b) (logpdf (fin x) (fin a) (fin b)) := by
  refine ⟨⟨fun h => ⟨_, cdf_eval h.1 h.2 x⟩, fun h => ?_⟩, ⟨fun h => ⟨_, sf_eval h.1 h.2 x⟩, fun h => ?_⟩,
    ⟨fun h => pdf_returns h.1 h.2 x, fun h => ?_⟩, ⟨fun h => logpdf_returns h.1 h.2 x, fun h => ?_⟩⟩ <;>
  simp [cdf, sf, pdf, logpdf, validate_bad h]

/-- C03 At the excluded ends the density is infinite, and `pdf` returns `+inf` there. -/
theorem pdf_ends (ha : 0 < a) (hb : 0 < b) : ∀ x ∈ Ends a b, pdf (fin x) (fin a) (fin b) = .ok pinf := by
  rintro x (⟨rfl, h⟩ | ⟨rfl, h⟩)
  · exact pdf_zero h ha hb
  · exact pdf_one h ha hb

/-- C04 off the ends of the support. -/
theorem isLogOf_interior (ha : 0 < a) (hb : 0 < b) :
    IsLogOf {0, 1} (pdf · (fin a) (fin b)) (logpdf · (fin a) (fin b)) := by
  have hE : ∀ x : ℝ, x ∉ ({0, 1} : Set ℝ) → x ∉ Ends a b := by
    rintro x hx (⟨h, -⟩ | ⟨h, -⟩) <;> simp [h] at hx
  refine isLogOf_of (P := Ioo 0 1) (fun x _ hx => f_pos ha hb hx.1 hx.2) (fun x hx hP => ?_)
    (fun x hx => pdf_eval ha hb x (hE x hx)) (fun x _ hx => logpdf_pos ha hb hx.1 hx.2)
    (fun x hx hP => ?_)
  · refine f_zero ha hb x fun h => hP ⟨h.1.lt_of_ne fun e => hx (by simp [← e]), h.2.lt_of_ne fun e => hx (by simp [e])⟩
  · refine logpdf_out ha hb ?_
    by_contra h
    push Not at h
    exact hP ⟨h.1.lt_of_ne fun e => hx (by simp [← e]), h.2.lt_of_ne fun e => hx (by simp [e])⟩

/-- C04, C42 at the ends of the support: the logarithm is right unless `a = 1` (at 0) or `b = 1` (at 1);
then `0*log(0)` makes `logpdf` return nan although `pdf` is finite and positive. -/
theorem logpdf_ends (ha : 0 < a) (hb : 0 < b) :
    (a < 1 → pdf 0 (fin a) (fin b) = .ok pinf ∧ logpdf 0 (fin a) (fin b) = .ok pinf) ∧
    (b < 1 → pdf 1 (fin a) (fin b) = .ok pinf ∧ logpdf 1 (fin a) (fin b) = .ok pinf) ∧
    (1 < a → pdf 0 (fin a) (fin b) = .ok 0 ∧ logpdf 0 (fin a) (fin b) = .ok ninf) ∧
    (1 < b → pdf 1 (fin a) (fin b) = .ok 0 ∧ logpdf 1 (fin a) (fin b) = .ok ninf) ∧
    (a = 1 → pdf 0 (fin a) (fin b) = .ok (fin b) ∧ logpdf 0 (fin a) (fin b) = .ok nan) ∧
    (b = 1 → pdf 1 (fin a) (fin b) = .ok (fin a) ∧ logpdf 1 (fin a) (fin b) = .ok nan) := by
  refine ⟨fun h => ⟨pdf_zero h ha hb, ?_⟩, fun h => ⟨pdf_one h ha hb, ?_⟩, fun h => ⟨?_, ?_⟩,
    fun h => ⟨?_, ?_⟩, fun h => ⟨?_, ?_⟩, fun h => ⟨?_, ?_⟩⟩
  · rw [logpdf_zero ha hb, if_pos h]
  · rw [logpdf_one ha hb, if_pos h]
  · rw [zero_def, pdf_eval ha hb 0 (by simp [Ends, h.not_gt])]
    simp [f, Real.zero_rpow (show a - 1 ≠ 0 by linarith)]
  · rw [logpdf_zero ha hb, if_neg h.not_gt, if_neg h.ne']
  · rw [one_def, pdf_eval ha hb 1 (by simp [Ends, h.not_gt])]
    simp [f, Real.zero_rpow (show b - 1 ≠ 0 by linarith)]
  · rw [logpdf_one ha hb, if_neg h.not_gt, if_neg h.ne']
  · rw [zero_def, pdf_eval ha hb 0 (by simp [Ends, h])]
    simp [f, h]
  · rw [logpdf_zero ha hb, if_neg h.not_lt, if_pos h]
  · rw [one_def, pdf_eval ha hb 1 (by simp [Ends, h])]
    simp [f, h]
  · rw [logpdf_one ha hb, if_neg h.not_lt, if_pos h]

/-- C04, C42 fails: for `a = 1`, `b = 2`, `pdf(0) = 2` but `logpdf(0)` is nan. -/
theorem isLogOf_fails : ¬ IsLogOf ∅ (pdf · (fin 1) (fin 2)) (logpdf · (fin 1) (fin 2)) := by
  intro h
  obtain ⟨r, _, _, h2⟩ := h 0 (by simp)
  have := ((logpdf_ends one_pos two_pos).2.2.2.2.1 rfl).2
  simp only [← zero_def] at h2
  rw [this] at h2
  split_ifs at h2 <;> cases h2

/-- C09 where the density is bounded. -/
theorem isMode (ha : 1 ≤ a) (hb : 1 ≤ b) : IsMode ∅ (pdf · (fin a) (fin b)) (mode (fin a) (fin b)) := by
  have ha0 : 0 < a := by linarith
  have hb0 : 0 < b := by linarith
  have hE : ∀ x, x ∉ Ends a b := by rintro x (h | h) <;> linarith [h.2]
  rcases ha.eq_or_lt with rfl | ha
  · refine isMode_of (m := 0) ?_ (fun x _ => pdf_eval ha0 hb0 x (hE x)) (by simp) (fun y _ => ?_)
    · simp [mode, validate_ok ha0 hb0, hb]
    · have : f 1 b 0 = b := by simp [f]
      rw [this, f]; split_ifs with h
      · exact hb0.le
      · push Not at h
        simp only [one_mul, sub_self, Real.rpow_zero, mul_one, Real.rpow_one]
        exact mul_le_of_le_one_right hb0.le (Real.rpow_le_one (by linarith) (by linarith) (by linarith))
  · rcases hb.eq_or_lt with rfl | hb
    · refine isMode_of (m := 1) ?_ (fun x _ => pdf_eval ha0 hb0 x (hE x)) (by simp) (fun y _ => ?_)
      · simp [mode, validate_ok ha0 hb0, ha, ha.not_gt, ha.ne']
      · have : f a 1 1 = a := by simp [f]
        rw [this, f]; split_ifs with h
        · exact ha0.le
        · push Not at h
          simp only [sub_self, Real.rpow_zero, mul_one]
          exact mul_le_of_le_one_right ha0.le (Real.rpow_le_one h.1 h.2 (by linarith))
    · exact isMode_of (mode_eval ha hb) (fun x _ => pdf_eval ha0 hb0 x (hE x)) (by simp) (fun y _ => f_le ha hb y)

/-- C09 where the density is unbounded: `mode` is an end of the support at which `pdf` is `+inf`. -/
theorem mode_unbounded (ha : 0 < a) (hb : 0 < b) (h : a < 1 ∨ b < 1) :
    ∃ m : ℝ, mode (fin a) (fin b) = .ok (fin m) ∧ pdf (fin m) (fin a) (fin b) = .ok pinf := by
  by_cases ha1 : a < 1
  · exact ⟨0, by simp [mode, validate_ok ha hb, ha1], pdf_zero ha1 ha hb⟩
  · have hb1 := h.resolve_left ha1
    refine ⟨1, ?_, pdf_one hb1 ha hb⟩
    simp [mode, validate_ok ha hb, ha1, hb1, hb1.not_ge, not_lt.1 ha1]

/-- C10 -/
theorem isMedian (ha : 0 < a) (hb : 0 < b) : IsMedian (cdf · (fin a) (fin b)) (median (fin a) (fin b)) := by
  refine isMedian_of (median_eval ha hb) ?_
  rw [cdf_eval ha hb, (F_Q ha hb (by norm_num) (by norm_num)).2]

/-- C37 -/
theorem isMean (ha : 0 < a) (hb : 0 < b) : IsMean (Ends a b) (pdf · (fin a) (fin b)) (mean (fin a) (fin b)) :=
  (hasMV ha hb).isMean ends_finite (fun x hx => pdf_eval ha hb x hx) (mean_eval ha hb)

/-- C37 -/
theorem isVar (ha : 0 < a) (hb : 0 < b) : IsVar (Ends a b) (pdf · (fin a) (fin b)) (var (fin a) (fin b)) :=
  (hasMV ha hb).isVar ends_finite (fun x hx => pdf_eval ha hb x hx) (var_eval ha hb)

/-- C50 Every moment. -/
theorem isMoment (ha : 0 < a) (hb : 0 < b) (n : ℕ) :
    IsMoment (Ends a b) (pdf · (fin a) (fin b)) n (noncentralMoment n (fin a) (fin b)) := by
  refine ⟨ends_finite, f a b, _, fun x hx => pdf_eval ha hb x hx, ?_, moment ha hb n⟩
  have h : 0 < 1 + (n:ℝ) / a := by positivity
  rcases Nat.eq_zero_or_pos n with rfl | hn
  · have : b * betaFn (1 + ((0:ℕ):ℝ) / a) b = 1 := by
      rw [← (moment ha hb 0).2]; simpa using (isDist ha hb).integral_one
    rw [this]
    simp [noncentralMoment, validateMomentN, validate_ok ha hb]
  · simp only [noncentralMoment, validateMomentN, validate_ok ha hb, ok_bind, one_def,
      fin_div _ ha.ne', fin_add, mp.beta_fin h hb, fin_mul, pure_eq_ok, not_lt.2 (Nat.cast_nonneg n),
      if_false, Int.toNat_natCast, hn.ne']

/-- C50 A negative order is rejected. -/
theorem noncentralMoment_rejects {n : ℤ} (hn : n < 0) (a b : Num) :
    noncentralMoment n a b = .error .valueError := by
  simp [noncentralMoment, validateMomentN, hn]

/-- C41 -/
theorem endPoints (ha : 0 < a) (hb : 0 < b) :
    EndPoints (invcdf · (fin a) (fin b)) 0 1 ∧ EndPoints (invsf · (fin a) (fin b)) 1 0 := by
  refine ⟨⟨?_, ?_⟩, ⟨?_, ?_⟩⟩ <;> simp [invcdf, invsf, validateP_ok, validate_ok ha hb]

/-- C48 -/
theorem atInfinities (ha : 0 < a) (hb : 0 < b) : AtInfinities (cdf · (fin a) (fin b)) (sf · (fin a) (fin b)) := by
  refine ⟨?_, ?_, ?_, ?_⟩ <;> simp [cdf, sf, validate_ok ha hb]

/-- `support` is right for valid parameters (and is returned for invalid ones too). -/
theorem support_eq (a b : Num) : support a b = .ok (0, 1) := rfl

/-- Non-vacuity: `a = 2`, `b = 3`: `sf(1/2) = 27/64`, mean `3 B(3/2, 3)`. -/
example : (1:ℝ) < 2 ∧ (1:ℝ) < 3 ∧ sf (fin (1 / 2)) (fin 2) (fin 3) = .ok (fin (27 / 64)) := by
  refine ⟨by norm_num, by norm_num, ?_⟩
  rw [sf_eval (by norm_num) (by norm_num), F, if_neg (by norm_num), if_neg (by norm_num)]
  rw [show (2:ℝ) = ((2:ℕ):ℝ) by norm_num, show (3:ℝ) = ((3:ℕ):ℝ) by norm_num, Real.rpow_natCast, Real.rpow_natCast]
  norm_num

end Mpsci.kumaraswamy
