import Verif.Lemmas.Dist.Benktander2
import Verif.Lemmas.Fit

/-! Properties of `benktander2`. -/

namespace Mpsci.benktander2

open Classical Num Spec common Filter Topology Set 

variable {a b : ℝ}

/-- C01 -/
theorem complementary (h : Valid a b) : Complementary (cdf · (fin a) (fin b)) (sf · (fin a) (fin b)) :=
  complementary_of (cdf_eval h) (sf_eval h)

/-- C02 -/
theorem isCdf (h : Valid a b) : IsCdf (cdf · (fin a) (fin b)) := (isDist h).isCdf (cdf_eval h)

/-- C03 -/
theorem isDensity (h : Valid a b) : IsDensity ∅ (Ici 1) (pdf · (fin a) (fin b)) (cdf · (fin a) (fin b)) :=
  (isDist h).isDensity (fun x hx => pdf_eval h x) (cdf_eval h) (f_zero h)

/-- C07 -/
theorem validates (x : ℝ) :
    ValidatesExactly (Valid a b) (cdf (fin x) (fin a) (fin b)) ∧
    ValidatesExactly (Valid a b) (sf (fin x) (fin a) (fin b)) ∧
    ValidatesExactly (Valid a b) (pdf (fin x) (fin a) (fin b)) ∧
    ValidatesExactly (Valid a b) (logpdf (fin x) (fin a) (fin b)) := by
  refine ⟨⟨fun h => ⟨_, cdf_eval h x⟩, fun h => ?_⟩, ⟨fun h => ⟨_, sf_eval h x⟩, fun h => ?_⟩,
    ⟨fun h => pdf_returns h x, fun h => ?_⟩, ⟨fun h => logpdf_returns h x, fun h => ?_⟩⟩ <;>
  simp [cdf, sf, pdf, logpdf, validate_bad h]

/-- C05 -/
theorem inverts_cdf (h : Valid a b) : Inverts (Ioi 1) (cdf · (fin a) (fin b)) (invcdf · (fin a) (fin b)) :=
  inverts_of_spec (fun x _ => cdf_eval h x) (fun _ hx => (F_mem h hx).2) (injOn_F h)
    fun _ h0 h1 => invcdf_spec h h0 h1

/-- C05 -/
theorem inverts_sf (h : Valid a b) : Inverts (Ioi 1) (sf · (fin a) (fin b)) (invsf · (fin a) (fin b)) :=
  inverts_of_spec (F := fun x => 1 - F a b x) (fun x _ => sf_eval h x)
    (fun x hx => ⟨by linarith [(F_mem h hx).2.2], by linarith [(F_mem h hx).2.1]⟩)
    (fun x hx y hy e => injOn_F h hx hy (by simpa using e))
    fun _ h0 h1 => invsf_spec h h0 h1

/-- C06 -/
theorem rejects_p : RejectsBadP (invcdf · (fin a) (fin b)) ∧ RejectsBadP (invsf · (fin a) (fin b)) := by
  constructor <;> intro p hp <;> simp [invcdf, invsf, validateP_bad hp]

/-- C04 -/
theorem isLogOf (h : Valid a b) : IsLogOf ∅ (pdf · (fin a) (fin b)) (logpdf · (fin a) (fin b)) :=
  isLogOf_of (P := Ici 1) (fun x _ hx => by rw [f, if_neg (not_lt.2 hx)]; exact k_pos h (lt_of_lt_of_le one_pos hx))
    (fun x _ => f_zero h x) (fun x _ => pdf_eval h x) (fun x _ hx => logpdf_pos h hx)
    (fun x _ hx => logpdf_out h (not_le.1 hx))

/-- C09 -/
theorem isMode (h : Valid a b) : IsMode ∅ (pdf · (fin a) (fin b)) (mode (fin a) (fin b)) :=
  isMode_of (m := 1) rfl (fun x _ => pdf_eval h x) (by simp) fun y _ => f_le h y

/-- C07 fails for `mode`, which does not validate its arguments. -/
theorem mode_not_validated : ¬ Valid 0 0 ∧ mode 0 0 = .ok 1 := ⟨fun h => lt_irrefl _ h.1, rfl⟩

/-- C37 -/
theorem isMean (h : Valid a b) : IsMean ∅ (pdf · (fin a) (fin b)) (mean (fin a) (fin b)) :=
  (hasMV h).isMean finite_empty (fun x _ => pdf_eval h x) (by simp [mean, validate_ok h, fin_div _ h.1.ne'])

/-- C37 -/
theorem isVar (h : Valid a b) : IsVar ∅ (pdf · (fin a) (fin b)) (var (fin a) (fin b)) := by
  refine (hasMV h).isVar finite_empty (fun x _ => pdf_eval h x) ?_
  have h2 : a ^ 2 * b ≠ 0 := by have := h.1; have := h.2.1; positivity
  simp only [var, validate_ok h, ok_bind, fin_div _ h.2.1.ne', one_def, fin_sub, mp.expint_fin _ (div_pos h.1 h.2.1),
    ofNat_def, fin_mul, mp.ipow_fin, mp.exp_fin, neg_fin, fin_add, fin_div _ h2]

/-- C41 at the left end of the support. Missing: the right end for `b < 1`, where it fails for some `b`
(`endPoint_fails`) and is `+inf` for the others (`endPoint_right`, `endPoint_one`). -/
theorem endPoints_partial (h : Valid a b) :
    invcdf 0 (fin a) (fin b) = .ok 1 ∧ invsf 1 (fin a) (fin b) = .ok 1 := by
  by_cases hb : b = 1
  · subst hb
    constructor <;> simp [invcdf, invsf, validateP_ok, validate_ok h, fin_div _ h.1.ne']
  · have := solve_eval h hb (x := 1) one_pos
    rw [show S a b 1 = 1 by simp [S, e]] at this
    constructor <;> simp [invcdf, invsf, validateP_ok, validate_ok h, hb, this]

/-- C41 -/
theorem endPoint_one (ha : 0 < a) : invcdf 1 (fin a) 1 = .ok pinf ∧ invsf 0 (fin a) 1 = .ok pinf := by
  have h := validate_ok (a := a) (b := 1) ⟨ha, one_pos, le_rfl⟩
  constructor <;> simp [invcdf, invsf, validateP_ok, h, ninf_div_pos ha]

/-- C41 -/
theorem endPoint_right (h : Valid a b) (hb : b ≠ 1) (hh : (⌊2 * (-b / (1 - b))⌋ : ℝ) ≠ 2 * (-b / (1 - b))) :
    invcdf 1 (fin a) (fin b) = .ok pinf ∧ invsf 0 (fin a) (fin b) = .ok pinf := by
  have h1 : 0 < 1 - b := by have := lt_of_le_of_ne h.2.2 hb; linarith
  have hc : 0 < a / (1 - b) := div_pos h.1 h1
  have hn : -b / (1 - b) < 0 := div_neg_of_neg_of_pos (by linarith [h.2.1]) h1
  have hs : solve (fin 0) (fin a) (fin b) = .ok pinf := by
    have : 0 < a / (1 - b) * Real.exp (a / (1 - b)) := mul_pos hc (Real.exp_pos _)
    have hb2 : 0 < 1 / b := one_div_pos.2 h.2.1
    have hp : mp.power (fin 0) (fin (-b / (1 - b))) = .ok pinf := by rw [mp.power_zero_neg hn, if_neg hh]
    have hq : mp.power pinf (fin (1 / b)) = .ok pinf := by simp only [mp.power, if_pos hb2]
    have hl : mp.lambertw pinf = .ok pinf := rfl
    simp only [solve, one_def, fin_sub, fin_div _ h1.ne', ok_bind, mp.exp_fin, fin_mul, neg_fin, hp,
      fin_mul_pinf, scaleInf_pos this, hl, pinf_div_pos hc, fin_div _ h.2.1.ne', hq]
  constructor <;> simp [invcdf, invsf, validateP_ok, validate_ok h, hb, hs]

/-- C41 fails at the right end of the support for `b = 1/2` (and whenever `2b/(1-b)` is an integer): the code
raises ZeroDivisionError where the quantile is `+inf`. -/
theorem endPoint_fails (ha : 0 < a) : invcdf 1 (fin a) (fin (1 / 2)) = .error .zeroDivision ∧
    invsf 0 (fin a) (fin (1 / 2)) = .error .zeroDivision := by
  have h : Valid a (1 / 2) := ⟨ha, by norm_num, by norm_num⟩
  have h1 : (1 - 1 / 2 : ℝ) ≠ 0 := by norm_num
  have hp : mp.power (fin 0) (fin (-(1 / 2) / (1 - 1 / 2))) = .error .zeroDivision :=
    mp.power_zero_neg_half (k := -2) (by norm_num) (by norm_num)
  have hs : solve (fin 0) (fin a) (fin (1 / 2)) = .error .zeroDivision := by
    simp only [solve, one_def, fin_sub, fin_div _ h1, ok_bind, neg_fin, hp]; rfl
  constructor
  · simp only [invcdf, one_def, validateP_ok zero_le_one le_rfl, validate_ok h, ok_bind, fin_eq, fin_sub, sub_self, hs]
    norm_num
  · simp only [invsf, zero_def, one_def, validateP_ok le_rfl zero_le_one, validate_ok h, ok_bind, fin_eq, hs]
    norm_num

theorem support_eq (h : Valid a b) : support (fin a) (fin b) = .ok (1, pinf) := by
  simp [support, validate_ok h]

/-- C48 for `b < 1`. Missing: `b = 1`, where it fails at `+inf` (`atInfinity_fails`). -/
theorem atInfinities_partial (h : Valid a b) (hb : b < 1) :
    AtInfinities (cdf · (fin a) (fin b)) (sf · (fin a) (fin b)) := by
  have h1 : b - 1 < 0 := by linarith
  have hr : 0 < a / b := div_pos h.1 h.2.1
  refine ⟨?_, ?_, ?_, ?_⟩ <;>
  simp [cdf, sf, validate_ok h, mp.log, mp.powm1, mp.power, h1, h1.ne, h1.not_gt, h.2.1, scaleInf_neg h1, fin_div _ h.2.1.ne',
    scaleInf_pos hr, hb.not_gt, (lt_irrefl (0:ℝ))]

/-- C48 fails for `b = 1` at `+inf`: both functions return nan. -/
theorem atInfinity_fails (ha : 0 < a) : cdf pinf (fin a) 1 = .ok nan ∧ sf pinf (fin a) 1 = .ok nan := by
  have h := validate_ok (a := a) (b := 1) ⟨ha, one_pos, le_rfl⟩
  constructor <;> simp [cdf, sf, h, mp.log, mp.powm1, mp.power, fin_div _ (one_ne_zero (α := ℝ))]

/-- C30 -/
theorem nll_spec (h : Valid a b) : NllIsNegSum (Ici 1) (logpdf · (fin a) (fin b)) (nll · (fin a) (fin b)) := by
  refine nll_of_fsum (fun x hx => logpdf_pos h hx) fun xs hx => ?_
  rw [nll, one_def, validateXBounds_ok (by rw [badLow_weak]; rintro ⟨t, h1, h2⟩; exact absurd (hx t h1) (not_le.2 h2))
    (by simp), ok_bind, validate_ok h, ok_bind]

/-- C30 -/
theorem nll_rejects : NllRejects (Ici 1) (nll · (fin a) (fin b)) := by
  rintro xs ⟨x, hx, hn⟩
  have : badLow (xs.map fin) (some (fin 1)) false := badLow_weak.2 ⟨x, hx, not_le.1 hn⟩
  simp [nll, validateXBounds_low this]

/-- Non-vacuity: `a = 2`, `b = 1/2` is admissible; the mean is 3/2. -/
example : Valid 2 (1 / 2) ∧ mean 2 (fin (1 / 2)) = .ok (fin (3 / 2)) := by
  have h : Valid 2 (1 / 2) := ⟨by norm_num, by norm_num, by norm_num⟩
  refine ⟨h, ?_⟩
  simp only [mean, ofNat_def, one_def, validate_ok h, ok_bind, fin_div _ (two_ne_zero (α := ℝ)), fin_add, pure_eq_ok]
  norm_num

end Mpsci.benktander2
