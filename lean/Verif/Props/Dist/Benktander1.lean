import Verif.Lemmas.Dist.Benktander1
import Verif.Lemmas.Fit

/-! Properties of `benktander1`. -/

namespace Mpsci.benktander1

open Classical Num Spec common Filter Topology Set 

variable {a b : ℝ}

/-- C01 -/
theorem complementary (h : Valid a b) : Complementary (cdf · (fin a) (fin b)) (sf · (fin a) (fin b)) :=
  complementary_of (cdf_eval h) (sf_eval h)

/-- C02 -/
theorem isCdf (h : Valid a b) : IsCdf (cdf · (fin a) (fin b)) := (isDist h).isCdf (cdf_eval h)

/-- C03 -/
theorem isDensity (h : Valid a b) : IsDensity ∅ (Ici 1) (pdf · (fin a) (fin b)) (cdf · (fin a) (fin b)) :=
  (isDist h).isDensity (fun x hx => pdf_eval h x) (cdf_eval h) (f_zero h)

/-- C07 -/
theorem validates (x : ℝ) :
    ValidatesExactly (Valid a b) (cdf (fin x) (fin a) (fin b)) ∧
    ValidatesExactly (Valid a b) (sf (fin x) (fin a) (fin b)) ∧
    ValidatesExactly (Valid a b) (pdf (fin x) (fin a) (fin b)) ∧
    ValidatesExactly (Valid a b) (logpdf (fin x) (fin a) (fin b)) := by
  refine ⟨⟨fun h => ⟨_, cdf_eval h x⟩, fun h => ?_⟩, ⟨fun h => ⟨_, sf_eval h x⟩, fun h => ?_⟩,
    ⟨fun h => pdf_returns h x, fun h => ?_⟩, ⟨fun h => logpdf_returns h x, fun h => ?_⟩⟩ <;>
  simp [cdf, sf, pdf, logpdf, validate_bad h]

variable {findroot : (Num → M Num) → Num → Num → M Num}

/-- C05 -/
theorem inverts_cdf (hr : RootFinder findroot) (h : Valid a b) :
    Inverts (Ioi 1) (cdf · (fin a) (fin b)) (invcdf findroot · (fin a) (fin b)) :=
  inverts_of_spec (fun x _ => cdf_eval h x) (fun _ hx => (F_mem h hx).2) (injOn_F h)
    fun _ h0 h1 => invcdf_spec hr h h0 h1

/-- C05 -/
theorem inverts_sf (hr : RootFinder findroot) (h : Valid a b) :
    Inverts (Ioi 1) (sf · (fin a) (fin b)) (invsf findroot · (fin a) (fin b)) :=
  inverts_of_spec (F := fun x => 1 - F a b x) (fun x _ => sf_eval h x)
    (fun x hx => ⟨by linarith [(F_mem h hx).2.2], by linarith [(F_mem h hx).2.1]⟩)
    (fun x hx y hy e => injOn_F h hx hy (by simpa using e))
    fun _ h0 h1 => invsf_spec hr h h0 h1

/-- C06 -/
theorem rejects_p : RejectsBadP (invcdf findroot · (fin a) (fin b)) ∧
    RejectsBadP (invsf findroot · (fin a) (fin b)) := by
  constructor <;> intro p hp <;> simp [invcdf, invsf, validateP_bad hp]

/-- C04 -/
theorem isLogOf (h : Valid a b) : IsLogOf ∅ (pdf · (fin a) (fin b)) (logpdf · (fin a) (fin b)) := by
  intro x _
  refine ⟨_, f_nonneg h x, pdf_eval h x, ?_⟩
  by_cases hx : x < 1
  · rw [if_pos (by simp [f, hx])]; exact logpdf_out h hx
  · rcases (c_nonneg h (log_nonneg hx)).eq_or_lt with e | e
    · rw [if_pos (by rw [f, if_neg hx, k, ← e, zero_mul])]; exact logpdf_zero h hx e.symm
    · rw [if_neg (by rw [f, if_neg hx]; exact (mul_pos e (Real.exp_pos _)).ne')]; exact logpdf_pos h hx e

/-- C09 -/
theorem isMode (h : Valid a b) : IsMode ∅ (pdf · (fin a) (fin b)) (mode (fin a) (fin b)) := by
  have hm := (k_le h le_rfl).1
  refine isMode_of (m := Real.exp (Lmode a b)) ?_ (fun x _ => pdf_eval h x) (by simp) fun y _ => ?_
  · have h6 : (0:ℝ) ≤ 6 * b + 1 := by have := h.2.1; positivity
    have h2b : 2 * b ≠ 0 := by have := h.2.1; positivity
    by_cases hc : a * (a + 2) / 6 < b
    · simp only [mode, validate_ok h, ok_bind, ofNat_def, fin_add, fin_mul, fin_div _ (show (6:ℝ) ≠ 0 by norm_num),
        fin_lt, hc, if_true, one_def, mp.sqrt_nonneg h6, neg_fin, fin_div _ h2b, mp.exp_fin, pure_eq_ok, Lmode]
    · simp only [mode, validate_ok h, ok_bind, ofNat_def, fin_add, fin_mul, fin_div _ (show (6:ℝ) ≠ 0 by norm_num),
        fin_lt, hc, if_false, one_def, pure_eq_ok, Lmode, Real.exp_zero]
  · have e : f a b (Real.exp (Lmode a b)) = k a b (Lmode a b) := by
      rw [f, if_neg (not_lt.2 (Real.one_le_exp hm)), Real.log_exp]
    rw [e, f]
    split_ifs with hy
    · exact mul_nonneg (c_nonneg h hm) (Real.exp_pos _).le
    · exact (k_le h (log_nonneg hy)).2

/-- C37 -/
theorem isMean (h : Valid a b) : IsMean ∅ (pdf · (fin a) (fin b)) (mean (fin a) (fin b)) :=
  (hasMV h).isMean finite_empty (fun x _ => pdf_eval h x) (by simp [mean, validate_ok h, fin_div _ h.1.ne'])

/-- C37 -/
theorem isVar (h : Valid a b) : IsVar ∅ (pdf · (fin a) (fin b)) (var (fin a) (fin b)) := by
  refine (hasMV h).isVar finite_empty (fun x _ => pdf_eval h x) ?_
  have hsb : 0 < Real.sqrt b := Real.sqrt_pos.2 h.2.1
  have h1 : 2 * Real.sqrt b ≠ 0 := by positivity
  have h2 : a ^ 2 * Real.sqrt b ≠ 0 := by have := h.1; positivity
  simp only [var, validate_ok h, ok_bind, mp.sqrt_nonneg h.2.1.le, one_def, fin_sub, ofNat_def, fin_mul, fin_div _ h1,
    mp.pi_def, mp.sqrt_nonneg Real.pi_pos.le, mp.ipow_fin, mp.exp_fin, mp.erfc_fin, neg_fin, fin_add, fin_div _ h2, K]
  congr 3; ring

/-- C41 -/
theorem endPoints (h : Valid a b) : EndPoints (invcdf findroot · (fin a) (fin b)) 1 pinf ∧
    EndPoints (invsf findroot · (fin a) (fin b)) pinf 1 := by
  refine ⟨⟨?_, ?_⟩, ?_, ?_⟩ <;> simp [invcdf, invsf, validateP_ok, validate_ok h]

theorem support_eq (h : Valid a b) : support (fin a) (fin b) = .ok (1, pinf) := by
  simp [support, validate_ok h]

/-- C48 at `-inf`. Missing: `+inf`, where it fails (`atInfinity_fails`). -/
theorem atInfinities_partial (h : Valid a b) :
    cdf ninf (fin a) (fin b) = .ok 0 ∧ sf ninf (fin a) (fin b) = .ok 1 := by
  simp [cdf, sf, validate_ok h]

/-- C48 fails at `+inf`: both functions compute `inf * 0` and return nan. -/
theorem atInfinity_fails (h : Valid a b) :
    cdf pinf (fin a) (fin b) = .ok nan ∧ sf pinf (fin a) (fin b) = .ok nan := by
  simp [cdf, sf, validate_ok h, mp.log, mp.power, scaleInf_pos h.2.1, scaleInf_pos (two_pos (α := ℝ)), pinf_div_pos h.1]

/-- C30. For `b = a(a+1)/2` the density is 0 at 1, so the data have to be greater than 1 for the
likelihood to be finite. -/
theorem nll_spec (h : Valid a b) : NllIsNegSum (Ioi 1) (logpdf · (fin a) (fin b)) (nll · (fin a) (fin b)) := by
  refine nll_of_fsum (fun x hx => logpdf_pos h (not_lt.2 (le_of_lt hx)) (c_pos h (Real.log_pos hx))) fun xs hx => ?_
  rw [nll, one_def, validateXBounds_ok (by rw [badLow_weak]; rintro ⟨t, h1, h2⟩; exact absurd (hx t h1) h2.le.not_gt)
    (by simp), ok_bind, validate_ok h, ok_bind]

/-- C30 -/
theorem nll_rejects : NllRejects (Ici 1) (nll · (fin a) (fin b)) := by
  rintro xs ⟨x, hx, hn⟩
  have : badLow (xs.map fin) (some (fin 1)) false := badLow_weak.2 ⟨x, hx, not_le.1 hn⟩
  simp [nll, validateXBounds_low this]

/-- Non-vacuity: `a = 1`, `b = 1` is admissible (the largest `b`); the mean is 2; root finders exist. -/
example : Valid 1 1 ∧ mean 1 1 = .ok (fin 2) ∧ ∃ findroot, RootFinder findroot := by
  have h : Valid 1 1 := ⟨by norm_num, by norm_num, by norm_num⟩
  refine ⟨h, ?_, exists_rootFinder⟩
  simp only [mean, one_def, validate_ok h, ok_bind, fin_div _ (one_ne_zero (α := ℝ)), fin_add, pure_eq_ok]
  norm_num

end Mpsci.benktander1
