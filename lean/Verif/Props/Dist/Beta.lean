import Verif.Lemmas.Dist.Beta
import Verif.Lemmas.BisectDyadic

/-! Properties of `beta`. -/

namespace Mpsci.beta

open Classical Num Spec common Filter Topology Set betaD

variable {a b : ℝ}

/-- C01 -/
theorem complementary (ha : 0 < a) (hb : 0 < b) : Complementary (cdf · (fin a) (fin b)) (sf · (fin a) (fin b)) :=
  complementary_of (cdf_eval ha hb) (sf_eval ha hb)

/-- C02 -/
theorem isCdf (ha : 0 < a) (hb : 0 < b) : IsCdf (cdf · (fin a) (fin b)) := (isDist ha hb).isCdf (cdf_eval ha hb)

/-- C03: away from `0` when `a < 1` and from `1` when `b < 1` -/
theorem isDensity (ha : 0 < a) (hb : 0 < b) : IsDensity (E a b) (Icc 0 1) (pdf · (fin a) (fin b)) (cdf · (fin a) (fin b)) :=
  (isDist ha hb).isDensity (fun _ hx => pdf_eval ha hb hx) (cdf_eval ha hb) fun _ hx => f_out hx

/-- C04, C42: away from `0` when `a < 1` and from `1` when `b < 1` -/
theorem isLogOf (ha : 0 < a) (hb : 0 < b) : IsLogOf (E a b) (pdf · (fin a) (fin b)) (logpdf · (fin a) (fin b)) := by
  refine isLogOf_of (P := {x | 0 < f a b x}) (g := fun x => f a b x) (fun x _ h => h)
    (fun x _ h => le_antisymm (not_lt.1 h) (f_nonneg ha hb x)) (fun x hx => pdf_eval ha hb hx) (fun x hx h => ?_) (fun x hx h => ?_)
  · have hm : x ∈ Icc (0:ℝ) 1 := by
      by_contra hh; have h : 0 < f a b x := h; rw [f_out hh] at h; exact lt_irrefl _ h
    rcases hm.1.eq_or_lt with rfl | h0
    · have h1 : ¬ a < 1 := fun h1 => hx (Or.inl ⟨rfl, h1⟩)
      have h2 : a = 1 := by
        by_contra hh; have h : 0 < f a b 0 := h
        rw [f_zero ((not_lt.1 h1).lt_of_ne' hh)] at h; exact lt_irrefl _ h
      rw [logpdf_zero ha hb, if_neg h1, if_pos h2, h2]
      rw [f_mid le_rfl zero_le_one, g, w]
      simp [Real.log_inv]
    rcases hm.2.eq_or_lt with rfl | h1
    · have h1 : ¬ b < 1 := fun h1 => hx (Or.inr ⟨rfl, h1⟩)
      have h2 : b = 1 := by
        by_contra hh; have h : 0 < f a b 1 := h
        rw [f_one ((not_lt.1 h1).lt_of_ne' hh)] at h; exact lt_irrefl _ h
      rw [logpdf_one ha hb, if_neg h1, if_pos h2, h2]
      rw [f_mid zero_le_one le_rfl, g, w]
      simp [Real.log_inv]
    · rw [logpdf_mid ha hb h0 h1, f_mid h0.le h1.le, log_g ha hb h0 h1]
  · have h : ¬ 0 < f a b x := h
    by_cases hm : x < 0 ∨ 1 < x
    · simp [logpdf, validate_ok ha hb, hm]
    push Not at hm
    rcases hm.1.eq_or_lt with rfl | h0
    · have h1 : ¬ a < 1 := fun h1 => hx (Or.inl ⟨rfl, h1⟩)
      have h2 : a ≠ 1 := by
        rintro rfl
        refine h ?_
        rw [f_mid le_rfl zero_le_one, g, w]
        simpa using betaFn_pos one_pos hb
      simp only [logpdf_zero ha hb, h1, if_false, h2]
    rcases hm.2.eq_or_lt with rfl | h1
    · have h1 : ¬ b < 1 := fun h1 => hx (Or.inr ⟨rfl, h1⟩)
      have h2 : b ≠ 1 := by
        rintro rfl
        refine h ?_
        rw [f_mid zero_le_one le_rfl, g, w]
        simpa using betaFn_pos ha one_pos
      simp only [logpdf_one ha hb, h1, if_false, h2]
    · exact absurd (by rw [f_mid h0.le h1.le]; exact g_pos ha hb h0 h1) h

/-- C04, C42: where the density is infinite both functions return infinity. -/
theorem pole (ha : 0 < a) (hb : 0 < b) {x : ℝ} (hx : x ∈ E a b) :
    pdf (fin x) (fin a) (fin b) = .ok pinf ∧ logpdf (fin x) (fin a) (fin b) = .ok pinf := by
  rcases hx with ⟨rfl, h⟩ | ⟨rfl, h⟩
  · exact ⟨by simp [pdf, validate_ok ha hb, h], by rw [logpdf_zero ha hb, if_pos h]⟩
  · exact ⟨by simp [pdf, validate_ok ha hb, h], by rw [logpdf_one ha hb, if_pos h]⟩

theorem search {func : Num → M Num} {q : ℕ} (hq : 9 ≤ q) (ha : 0 < a) (hb : 0 < b) {p : ℝ} (h0 : 0 < p) (h1 : p < 1) (c : Bool)
    (hf : ∀ t ∈ Icc (0:ℝ) 1, func (fin t) = .ok (fin (if c then 1 - F a b t else F a b t))) :
    ∃ N r, RootFound (floats q) (fun t => (if c then 1 - F a b t else F a b t) - p) 0 1 r ∧
      ∀ n ≥ N, (do
        let (x0, x1) ← findBracket n func (fin p) 0 1
        if x0 =. x1 then return x0
        fn.betaincinvBisect (roundTo halfEven q) n (fin a) (fin b) (fin p) x0 x1 c) = Except.ok (fin r) := by
  obtain ⟨lo, hi, d1, d2, d3, hfin⟩ := findBracket_unit (p := p) (g := fun t => if c then 1 - F a b t else F a b t) hf (by
      cases c <;> simp [F_le le_rfl, F_ge le_rfl] <;> nlinarith)
  rcases d3 with ⟨rfl, d3⟩ | d3
  · refine ⟨0, lo, ⟨d1.floats (by omega), by rw [uIcc_of_le zero_le_one]; exact d1.mem, Or.inl (by simp only [d3, sub_self])⟩, fun n _ => ?_⟩
    simp only [hfin, ok_bind, fin_eq, if_true, pure_eq_ok]
  · have hne : lo ≠ hi := by
      rintro rfl; nlinarith [mul_self_nonneg ((if c then 1 - F a b lo else F a b lo) - p)]
    have hr : ∀ t ∈ Icc (0:ℝ) 1, fn.regBeta a b t = F a b t := fun t ht => by rw [F_mid ha hb ht.1 ht.2]; rfl
    obtain ⟨N, r, r1, r2⟩ := fn.betaincinv_bracket (p := q) (by omega) ha hb h0 h1 c (d1.floats (by omega)) (d2.floats (by omega)) d1.mem d2.mem
      (by rw [hr _ d1.mem, hr _ d2.mem]; exact d3.le)
    have hsub : uIcc lo hi ⊆ Icc (0:ℝ) 1 := uIcc_subset_Icc d1.mem d2.mem
    refine ⟨N, r, ⟨r1.1, by rw [uIcc_of_le zero_le_one]; exact hsub r1.2.1, ?_⟩, fun n hn => ?_⟩
    · rcases r1.2.2 with e | ⟨s, s1, s2, s3⟩
      · exact Or.inl (by simpa only [hr _ (hsub r1.2.1)] using e)
      · exact Or.inr ⟨s, by rw [uIcc_of_le zero_le_one]; exact hsub s1, s2, by
          simpa only [hr _ (hsub r1.2.1), hr _ (hsub s1)] using s3⟩
    · simp only [hfin, ok_bind, fin_eq, hne, if_false]
      exact r2 n hn

/-- C05: with at least nine bits, `invcdf` ends and returns the quantile or a representable number next to it. -/
theorem inverts_cdf_rounded {q : ℕ} (hq : 9 ≤ q) (ha : 0 < a) (hb : 0 < b) : ∃ G : ℝ → ℝ, RealFn (cdf · (fin a) (fin b)) G ∧
    ∀ p, 0 < p → p < 1 → ∃ N r, RootFound (floats q) (fun t => G t - p) 0 1 r ∧
      ∀ n ≥ N, invcdf (roundTo halfEven q) n (fin p) (fin a) (fin b) = .ok (fin r) := by
  refine ⟨_, cdf_eval ha hb, fun p h0 h1 => ?_⟩
  obtain ⟨N, r, h2, h3⟩ := search hq ha hb h0 h1 false (func := fun x => cdf x (fin a) (fin b)) fun t _ => cdf_eval ha hb t
  exact ⟨N, r, h2, fun n hn => by simp only [invcdf, validate_ok ha hb, validateP_ok h0.le h1.le, ok_bind]; exact h3 n hn⟩

/-- C05: with at least nine bits, `invsf` ends and returns the quantile or a representable number next to it. -/
theorem inverts_sf_rounded {q : ℕ} (hq : 9 ≤ q) (ha : 0 < a) (hb : 0 < b) : ∃ G : ℝ → ℝ, RealFn (sf · (fin a) (fin b)) G ∧
    ∀ p, 0 < p → p < 1 → ∃ N r, RootFound (floats q) (fun t => G t - p) 0 1 r ∧
      ∀ n ≥ N, invsf (roundTo halfEven q) n (fin p) (fin a) (fin b) = .ok (fin r) := by
  refine ⟨_, sf_eval ha hb, fun p h0 h1 => ?_⟩
  obtain ⟨N, r, h2, h3⟩ := search hq ha hb h0 h1 true (func := fun x => sf x (fin a) (fin b)) fun t _ => sf_eval ha hb t
  exact ⟨N, r, h2, fun n hn => by simp only [invsf, validate_ok ha hb, validateP_ok h0.le h1.le, ok_bind]; exact h3 n hn⟩

/-- C06 -/
theorem rejects_p (ha : 0 < a) (hb : 0 < b) (rnd : ℝ → ℝ) (fuel : ℕ) : RejectsBadP (invcdf rnd fuel · (fin a) (fin b)) ∧
    RejectsBadP (invsf rnd fuel · (fin a) (fin b)) := by
  constructor <;> intro p hp <;> simp [invcdf, invsf, validate_ok ha hb, validateP_bad hp]

/-- C07 -/
theorem validates {x : ℝ} :
    ValidatesExactly (0 < a ∧ 0 < b) (cdf (fin x) (fin a) (fin b)) ∧
    ValidatesExactly (0 < a ∧ 0 < b) (sf (fin x) (fin a) (fin b)) ∧
    ValidatesExactly (0 < a ∧ 0 < b) (mode (fin a) (fin b)) ∧
    ValidatesExactly (0 < a ∧ 0 < b) (mean (fin a) (fin b)) ∧
    ValidatesExactly (0 < a ∧ 0 < b) (var (fin a) (fin b)) ∧
    ValidatesExactly (0 < a ∧ 0 < b) (skewness (fin a) (fin b)) ∧
    ValidatesExactly (0 < a ∧ 0 < b) (kurtosis (fin a) (fin b)) ∧
    ValidatesExactly (0 < a ∧ 0 < b) (entropy (fin a) (fin b)) := by
  refine ⟨⟨fun h => ⟨_, cdf_eval h.1 h.2 x⟩, fun h => ?_⟩, ⟨fun h => ⟨_, sf_eval h.1 h.2 x⟩, fun h => ?_⟩,
    ⟨fun h => ⟨_, mode_eval h.1 h.2⟩, fun h => ?_⟩, ⟨fun h => ⟨_, mean_eval h.1 h.2⟩, fun h => ?_⟩,
    ⟨fun h => ⟨_, var_eval h.1 h.2⟩, fun h => ?_⟩, ⟨fun h => ⟨_, skewness_eval h.1 h.2⟩, fun h => ?_⟩,
    ⟨fun h => ⟨_, kurtosis_eval h.1 h.2⟩, fun h => ?_⟩, ⟨fun h => ⟨_, entropy_eval h.1 h.2⟩, fun h => ?_⟩⟩ <;>
  simp [cdf, sf, mode, mean, var, skewness, kurtosis, entropy, validate_bad h]

/-- C07 -/
theorem validates_rest (h : ¬ (0 < a ∧ 0 < b)) (rnd : ℝ → ℝ) (fuel : ℕ) (x y p : Num) (n : ℕ) :
    pdf x (fin a) (fin b) = .error .valueError ∧ logpdf x (fin a) (fin b) = .error .valueError ∧
    invcdf rnd fuel p (fin a) (fin b) = .error .valueError ∧ invsf rnd fuel p (fin a) (fin b) = .error .valueError ∧
    support (fin a) (fin b) = .error .valueError ∧ intervalProb x y (fin a) (fin b) = .error .valueError ∧
    noncentralMoment n (fin a) (fin b) = .error .valueError := by
  have hv : validateMomentN (n : ℤ) = .ok n := by simp [validateMomentN]
  refine ⟨?_, ?_, ?_, ?_, ?_, ?_, ?_⟩ <;>
  simp [pdf, logpdf, invcdf, invsf, support, intervalProb, noncentralMoment, hv, validate_bad h]

theorem w_le {x : ℝ} (ha : 1 ≤ a) (hb : 1 ≤ b) (h0 : 0 ≤ x) (h1 : x ≤ 1) :
    w a b x ≤ w a b (if a = 1 then 0 else if b ≤ 1 then 1 else (a - 1) / (a + b - 2)) := by
  have h2 : 0 ≤ 1 - x := by linarith
  split_ifs with c1 c2
  · subst c1
    simp only [w, sub_self, Real.rpow_zero, sub_zero, Real.one_rpow, one_mul]
    exact Real.rpow_le_one h2 (by linarith) (by linarith)
  · obtain rfl : b = 1 := le_antisymm c2 hb
    simp only [w, sub_self, Real.rpow_zero, Real.one_rpow, mul_one]
    exact Real.rpow_le_one h0 h1 (by linarith)
  · have ha' : 0 < a - 1 := by have := ha.lt_of_ne' c1; linarith
    have hb' : 0 < b - 1 := by push Not at c2; linarith
    have hs : 0 < a + b - 2 := by linarith
    set m := (a - 1) / (a + b - 2) with hm
    have m0 : 0 < m := div_pos ha' hs
    have m1 : 1 - m = (b - 1) / (a + b - 2) := by rw [hm]; field_simp; ring
    have m1' : 0 < 1 - m := by rw [m1]; exact div_pos hb' hs
    have hw : 0 < w a b m := w_pos m0 (by linarith)
    rcases h0.eq_or_lt with rfl | h0
    · rw [w, Real.zero_rpow ha'.ne', zero_mul]; exact hw.le
    rcases h1.eq_or_lt with rfl | h1
    · rw [w, sub_self, Real.zero_rpow hb'.ne', mul_zero]; exact hw.le
    have h2 : 0 < 1 - x := by linarith
    rw [← Real.log_le_log_iff (w_pos h0 h1) hw]
    have e : ∀ t, 0 < t → 0 < 1 - t → Real.log (w a b t) = (a - 1) * Real.log t + (b - 1) * Real.log (1 - t) := fun t t0 t1 => by
      rw [w, Real.log_mul (Real.rpow_pos_of_pos t0 _).ne' (Real.rpow_pos_of_pos t1 _).ne', Real.log_rpow t0, Real.log_rpow t1]
    rw [e x h0 h2, e m m0 m1']
    have l1 := Real.log_le_sub_one_of_pos (div_pos h0 m0)
    have l2 := Real.log_le_sub_one_of_pos (div_pos h2 m1')
    rw [Real.log_div h0.ne' m0.ne'] at l1
    rw [Real.log_div h2.ne' m1'.ne'] at l2
    have k1 := mul_le_mul_of_nonneg_left l1 ha'.le
    have k2 := mul_le_mul_of_nonneg_left l2 hb'.le
    have : (a - 1) * (x / m - 1) + (b - 1) * ((1 - x) / (1 - m) - 1) = 0 := by
      rw [m1, hm]; field_simp; ring
    linarith

/-- C09: for the parameters with a bounded density -/
theorem isMode (ha : 1 ≤ a) (hb : 1 ≤ b) : IsMode ∅ (pdf · (fin a) (fin b)) (mode (fin a) (fin b)) := by
  have ha0 : 0 < a := by linarith
  have hb0 : 0 < b := by linarith
  have hB := betaFn_pos ha0 hb0
  have hE : ∀ x, x ∉ E a b := by rintro x (⟨-, h⟩ | ⟨-, h⟩) <;> linarith
  refine isMode_of (mode_eval ha0 hb0) (fun x _ => pdf_eval ha0 hb0 (hE x)) (by simp) (fun y _ => ?_)
  simp only [ha.not_gt, hb.not_gt, if_false]
  have hm : (if a = 1 then 0 else if b ≤ 1 then 1 else (a - 1) / (a + b - 2)) ∈ Icc (0:ℝ) 1 := by
    split_ifs with c1 c2
    · exact ⟨le_rfl, zero_le_one⟩
    · exact ⟨zero_le_one, le_rfl⟩
    · have := ha.lt_of_ne' c1
      have hs : 0 < a + b - 2 := by linarith
      exact ⟨div_nonneg (by linarith) hs.le, (div_le_one hs).2 (by linarith)⟩
  rw [f_mid hm.1 hm.2]
  by_cases h : y ∈ Icc (0:ℝ) 1
  · rw [f_mid h.1 h.2]; exact div_le_div_of_nonneg_right (w_le ha hb h.1 h.2) hB.le
  · rw [f_out h]; exact g_nonneg ha0 hb0 hm.1 hm.2

/-- C09: for the other parameters the mode is a point with infinite density. -/
theorem mode_pole (ha : 0 < a) (hb : 0 < b) (h : a < 1 ∨ b < 1) : ∃ x : ℝ, mode (fin a) (fin b) = .ok (fin x) ∧
    pdf (fin x) (fin a) (fin b) = .ok pinf := by
  refine ⟨_, mode_eval ha hb, (pole ha hb ?_).1⟩
  by_cases h1 : a < 1
  · rw [if_pos h1]; exact Or.inl ⟨rfl, h1⟩
  · have h2 := h.resolve_left h1
    simp only [h1, h2, h2.le, if_false, if_true, ite_self]
    exact Or.inr ⟨rfl, h2⟩

/-- C12: exchanging the parameters reflects the distribution. -/
theorem symmetric (ha : 0 < a) (hb : 0 < b) (x : ℝ) : sf (fin x) (fin a) (fin b) = cdf (fin (1 - x)) (fin b) (fin a) := by
  rw [sf_eval ha hb, cdf_eval hb ha]
  by_cases h0 : x < 0
  · rw [F_le h0.le, F_ge (by linarith), sub_zero]
  by_cases h1 : 1 < x
  · rw [F_ge h1.le, F_le (by linarith), sub_self]
  push Not at h0 h1
  rw [F_mid ha hb h0 h1, F_mid hb ha (by linarith) (by linarith), P_compl ha hb h0 h1]

theorem pdf_off (ha : 0 < a) (hb : 0 < b) : RealFnOff (E a b) (pdf · (fin a) (fin b)) (f a b) := fun _ hx => pdf_eval ha hb hx

theorem hQ (ha : 0 < a) (hb : 0 < b) : ∀ p, 0 < p → p < 1 → F a b (0 + 1 * Q a b p) = p := fun p h0 h1 => by
  rw [zero_add, one_mul]; exact F_Q ha hb p h0 h1

theorem Y1 (ha : 0 < a) (hb : 0 < b) : Int01 (Q a b) (m a b 1) := (E_pow ha hb 1).congr fun p _ _ => (pow_one _).symm

theorem hasMV (ha : 0 < a) (hb : 0 < b) : HasMV (f a b) (0 + 1 * m a b 1) (1 ^ 2 * (m a b 2 - m a b 1 ^ 2)) :=
  hasMV_of_affine (isDist ha hb) (hQ ha hb) (Y1 ha hb) (E_pow ha hb 2)

theorem var_eq (ha : 0 < a) (hb : 0 < b) : m a b 2 - m a b 1 ^ 2 = a * b / ((a + b) ^ 2 * (a + b + 1)) := by
  rw [m_two ha hb, m_one ha hb]; field_simp; ring

/-- C37 -/
theorem isMean (ha : 0 < a) (hb : 0 < b) : IsMean (E a b) (pdf · (fin a) (fin b)) (mean (fin a) (fin b)) :=
  (hasMV ha hb).isMean E_finite (pdf_off ha hb) (by rw [mean_eval ha hb, zero_add, one_mul, m_one ha hb])

/-- C37 -/
theorem isVar (ha : 0 < a) (hb : 0 < b) : IsVar (E a b) (pdf · (fin a) (fin b)) (var (fin a) (fin b)) :=
  (hasMV ha hb).isVar E_finite (pdf_off ha hb) (by rw [var_eval ha hb, one_pow, one_mul, var_eq ha hb])

/-- C37 -/
theorem isSkewness (ha : 0 < a) (hb : 0 < b) : IsSkewness (E a b) (pdf · (fin a) (fin b)) (skewness (fin a) (fin b)) := by
  refine isSkewness_of E_finite (pdf_off ha hb) (isDist ha hb) (f_nonneg ha hb) (hQ ha hb) (Y1 ha hb) (E_pow ha hb 2) (E_pow ha hb 3)
    fun hv => ?_
  rw [skewness_eval ha hb, one_pow, one_pow, one_mul, one_mul, var_eq ha hb, m_one ha hb, m_two ha hb, m_three ha hb]
  have hab : 0 < a * b := by positivity
  have h1 : 0 < a + b + 1 := by positivity
  have q1 : 0 < √(a * b) := Real.sqrt_pos.2 hab
  have q2 : 0 < √(a + b + 1) := Real.sqrt_pos.2 h1
  have s1 := Real.sq_sqrt hab.le
  have s2 := Real.sq_sqrt h1.le
  have e : (a * b / ((a + b) ^ 2 * (a + b + 1))) ^ (3 / 2 : ℝ) = (√(a * b) / ((a + b) * √(a + b + 1))) ^ 3 := by
    rw [show a * b / ((a + b) ^ 2 * (a + b + 1)) = (√(a * b) / ((a + b) * √(a + b + 1))) ^ 2 by
      rw [div_pow, mul_pow, s1, s2], ← Real.rpow_natCast _ 2, ← Real.rpow_mul (by positivity)]
    norm_num
  rw [e]
  have e1 : (√(a * b) / ((a + b) * √(a + b + 1))) ^ 3 = a * b * √(a * b) / ((a + b) ^ 3 * ((a + b + 1) * √(a + b + 1))) := by
    rw [div_pow, mul_pow, pow_succ √(a * b), pow_succ √(a + b + 1), s1, s2]
  rw [e1]
  congr 2
  have e2 : √(a + b + 1) = (a + b + 1) / √(a + b + 1) := by rw [eq_div_iff q2.ne', ← sq, s2]
  generalize √(a + b + 1) = u at *
  generalize √(a * b) = v at *
  field_simp
  ring

/-- C37 -/
theorem isKurtosis (ha : 0 < a) (hb : 0 < b) : IsKurtosis (E a b) (pdf · (fin a) (fin b)) (kurtosis (fin a) (fin b)) := by
  refine isKurtosis_of E_finite (pdf_off ha hb) (isDist ha hb) (f_nonneg ha hb) (hQ ha hb) (Y1 ha hb) (E_pow ha hb 2) (E_pow ha hb 3)
    (E_pow ha hb 4) fun _ hv => ?_
  rw [kurtosis_eval ha hb, var_eq ha hb, m_one ha hb, m_two ha hb, m_three ha hb, m_four ha hb]
  congr 2
  field_simp
  ring

/-- C37 -/
theorem isEntropy (ha : 0 < a) (hb : 0 < b) : IsEntropy (E a b) (pdf · (fin a) (fin b)) (entropy (fin a) (fin b)) := by
  refine HasEnt.isEntropy (HasEnt.of_int01 (isDist ha hb) (F_Q ha hb)
    (e := Real.log (betaFn a b) - (a - 1) * (psi a - psi (a + b)) - (b - 1) * (psi b - psi (a + b))) ?_) E_finite (pdf_off ha hb) ?_
  · refine (((Int01.const (Real.log (betaFn a b))).sub ((E_log ha hb).mul (a - 1))).sub ((E_log1m ha hb).mul (b - 1))).congr fun p _ _ => ?_
    obtain ⟨h0, h1⟩ := Q_mem (a := a) (b := b) p
    rw [f_mid h0.le h1.le, log_g ha hb h0 h1]; ring
  · rw [entropy_eval ha hb]; congr 2; ring

/-- C50 -/
theorem isMoment (ha : 0 < a) (hb : 0 < b) (n : ℕ) : IsMoment (E a b) (pdf · (fin a) (fin b)) n (noncentralMoment n (fin a) (fin b)) := by
  have hv : validateMomentN (n : ℤ) = .ok n := by simp [validateMomentN]
  exact isMoment_of_int01 E_finite (pdf_off ha hb) (isDist ha hb) (F_Q ha hb) (E_pow ha hb n) (by
    simp only [noncentralMoment, hv, ok_bind, validate_ok ha hb, momentLoop_eval ha hb])

/-- C50 -/
theorem moment_negative (n : ℤ) (h : n < 0) (a b : Num) : noncentralMoment n a b = .error .valueError := by
  simp [noncentralMoment, validateMomentN, h]

/-- C50 -/
theorem moments_agree (ha : 0 < a) (hb : 0 < b) : ∃ m v m2 : ℝ, mean (fin a) (fin b) = .ok (fin m) ∧
    noncentralMoment 1 (fin a) (fin b) = .ok (fin m) ∧ var (fin a) (fin b) = .ok (fin v) ∧
    noncentralMoment 2 (fin a) (fin b) = .ok (fin m2) ∧ v = m2 - m ^ 2 ∧ noncentralMoment 0 (fin a) (fin b) = .ok 1 := by
  have h1 : validateMomentN 1 = .ok 1 := rfl
  have h2 : validateMomentN 2 = .ok 2 := rfl
  have h3 : validateMomentN 0 = .ok 0 := rfl
  refine ⟨_, _, m a b 2, mean_eval ha hb, ?_, var_eval ha hb, ?_, by rw [← var_eq ha hb, m_one ha hb], ?_⟩
  · simp only [noncentralMoment, h1, ok_bind, validate_ok ha hb, momentLoop_eval ha hb, m_one ha hb]
  · simp only [noncentralMoment, h2, ok_bind, validate_ok ha hb, momentLoop_eval ha hb]
  · simp only [noncentralMoment, h3, ok_bind, validate_ok ha hb, momentLoop_eval ha hb, m_zero ha hb, one_def]

/-- C40: for intervals within `[0, 1]` -/
theorem intervalProb_spec (ha : 0 < a) (hb : 0 < b) {x y : ℝ} (hx : 0 ≤ x) (hxy : x ≤ y) (hy : y ≤ 1) : ∃ u v : ℝ,
    cdf (fin x) (fin a) (fin b) = .ok (fin u) ∧ cdf (fin y) (fin a) (fin b) = .ok (fin v) ∧
    intervalProb (fin x) (fin y) (fin a) (fin b) = .ok (fin (v - u)) := by
  have hx1 := hxy.trans hy
  have hy0 := hx.trans hxy
  refine ⟨_, _, cdf_eval ha hb x, cdf_eval ha hb y, ?_⟩
  simp only [intervalProb, validate_ok ha hb, ok_bind, gt_iff, fin_lt, hxy.not_gt, if_false, mp.betaincReg_fin ha hb hx hx1 hy0 hy,
    between ha hb hx hx1 hy0 hy, F_mid ha hb hx hx1, F_mid ha hb hy0 hy]

/-- C40 -/
theorem intervalProb_rejects (ha : 0 < a) (hb : 0 < b) {x y : ℝ} (h : y < x) :
    intervalProb (fin x) (fin y) (fin a) (fin b) = .error .valueError := by
  simp only [intervalProb, validate_ok ha hb, ok_bind, gt_iff, fin_lt, h, if_true]; rfl

/-- C40 fails outside `[0, 1]`: the ends are not moved into the support, and the "probability" of `[-1, 2]` is 3 with
`a = b = 1`. -/
theorem intervalProb_outside : intervalProb (fin (-1)) (fin 2) (fin 1) (fin 1) = .ok (fin 3) ∧
    cdf (fin (-1)) (fin 1) (fin 1) = .ok (fin 0) ∧ cdf (fin 2) (fin 1) (fin 1) = .ok (fin 1) := by
  refine ⟨?_, by rw [cdf_eval one_pos one_pos, F_le (by norm_num)], by rw [cdf_eval one_pos one_pos, F_ge (by norm_num)]⟩
  have h : mp.betaincReg (fin 1) (fin 1) (fin (-1)) (fin 2) = .ok (fin 3) := by
    have e : ∃ m n : ℕ, (1:ℝ) = m ∧ (1:ℝ) = n := ⟨1, 1, by simp, by simp⟩
    have e1 : betaInt 1 1 (-1) 2 / betaFn 1 1 = 3 := by
      have : betaFn 1 1 = 1 := by norm_num [betaFn, Real.Gamma_one, Real.Gamma_two]
      rw [this, betaInt]; norm_num
    simp only [mp.betaincReg, e, or_true, zero_lt_one, and_self, if_true, e1]
  have c : ¬ (2:ℝ) < -1 := by norm_num
  simp only [intervalProb, validate_ok one_pos one_pos, ok_bind, gt_iff, fin_lt, c, if_false, h]

/-- C41 -/
theorem endPoints (ha : 0 < a) (hb : 0 < b) (rnd : ℝ → ℝ) (fuel : ℕ) : EndPoints (invcdf rnd fuel · (fin a) (fin b)) 0 1 ∧
    EndPoints (invsf rnd fuel · (fin a) (fin b)) 1 0 := by
  have h0 : validateP (fin 0) = .ok (fin 0) := validateP_ok le_rfl zero_le_one
  have h1 : validateP (fin 1) = .ok (fin 1) := validateP_ok zero_le_one le_rfl
  refine ⟨⟨?_, ?_⟩, ?_, ?_⟩ <;>
  simp [invcdf, invsf, validate_ok ha hb, h0, h1, findBracket, cdf_eval ha hb, sf_eval ha hb, F_le, F_ge]

/-- C41 -/
theorem support_spec (ha : 0 < a) (hb : 0 < b) : support (fin a) (fin b) = .ok (0, 1) := by
  simp [support, validate_ok ha hb]

/-- C48 -/
theorem atInfinities (ha : 0 < a) (hb : 0 < b) : AtInfinities (cdf · (fin a) (fin b)) (sf · (fin a) (fin b)) := by
  refine ⟨?_, ?_, ?_, ?_⟩ <;> simp [cdf, sf, validate_ok ha hb]

/-- Non-vacuity: parameters with a bounded density, and with an unbounded one. -/
example : ((0:ℝ) < 2 ∧ (0:ℝ) < 3 ∧ E 2 3 = ∅) ∧ (0:ℝ) ∈ E (1 / 2) 3 := by
  refine ⟨⟨by norm_num, by norm_num, ?_⟩, Or.inl ⟨rfl, by norm_num⟩⟩
  ext x; simp only [E, mem_setOf_eq, mem_empty_iff_false, iff_false]; norm_num

end Mpsci.beta
