import Verif.Model.Dist.HalfLogistic
import Verif.Lemmas.Dist.Logistic

namespace Mpsci.half_logistic

open Classical Num common Filter Topology Set

noncomputable def F (z : ℝ) : ℝ := if z < 0 then 0 else 2 * logistic.F z - 1
noncomputable def f (z : ℝ) : ℝ := if z < 0 then 0 else 2 * logistic.f z
noncomputable def Q (p : ℝ) : ℝ := Real.log (1 + p) - Real.log (1 - p)

variable {loc s : ℝ}

theorem validate_ok (hs : 0 < s) : validateLocScale (fin loc) (fin s) = .ok (fin loc, fin s) :=
  validateLocScale_ok _ hs
theorem validate_bad (hs : ¬ 0 < s) : validateLocScale (fin loc) (fin s) = .error .valueError :=
  validateLocScale_bad _ (not_lt.1 hs)

theorem cdf_eval (hs : 0 < s) (x : ℝ) :
    cdf (fin x) (fin loc) (fin s) = .ok (fin (F ((x - loc) / s))) := by
  have e := affine_lt_zero (x := x) (loc := loc) hs
  by_cases h : x < loc
  · simp [cdf, validateLocScale_ok _ hs, F, e, h]
  · have := logistic.den_pos ((x - loc) / s)
    simp only [cdf, validateLocScale_ok _ hs, ok_bind, fin_lt, h, if_false, fin_sub,
      fin_div _ hs.ne', neg_fin, mp.expm1_fin, mp.exp_fin, one_def, fin_add, fin_div _ this.ne',
      F, e, logistic.F]
    congr 2; field_simp; ring
theorem sf_eval (hs : 0 < s) (x : ℝ) :
    sf (fin x) (fin loc) (fin s) = .ok (fin (1 - F ((x - loc) / s))) := by
  have e := affine_lt_zero (x := x) (loc := loc) hs
  by_cases h : x < loc
  · simp [sf, validateLocScale_ok _ hs, F, e, h]
  · have := logistic.den_pos ((x - loc) / s)
    simp only [sf, validateLocScale_ok _ hs, ok_bind, fin_lt, h, if_false, fin_sub,
      fin_div _ hs.ne', neg_fin, mp.exp_fin, one_def, fin_add, fin_div _ this.ne',
      F, e, logistic.F, ofNat_def, fin_mul]
    congr 2; field_simp; ring
theorem pdf_eval (hs : 0 < s) (x : ℝ) :
    pdf (fin x) (fin loc) (fin s) = .ok (fin (f ((x - loc) / s) / s)) := by
  have e := affine_lt_zero (x := x) (loc := loc) hs
  by_cases h : x < loc
  · simp [pdf, validateLocScale_ok _ hs, f, e, h]
  · simp only [pdf, validateLocScale_ok _ hs, ok_bind, fin_lt, h, if_false, fin_sub,
      fin_div _ hs.ne', ofNat_def, fin_div _ (two_ne_zero (α := ℝ)), mp.sech_fin, mp.ipow_fin,
      f, e, ← logistic.sech_half]
    congr 3; ring
theorem logpdf_ge (hs : 0 < s) {x : ℝ} (h : ¬ x < loc) : logpdf (fin x) (fin loc) (fin s)
    = .ok (fin (Real.log (f ((x - loc) / s) / s))) := by
  have e := affine_lt_zero (x := x) (loc := loc) hs
  have hc : 0 < 1 / Real.cosh ((x - loc) / s / 2) := by
    have := Real.cosh_pos ((x - loc) / s / 2); positivity
  simp only [logpdf, validateLocScale_ok _ hs, ok_bind, fin_lt, h, if_false, fin_sub,
    fin_div _ hs.ne', ofNat_def, fin_div _ (two_ne_zero (α := ℝ)), mp.sech_fin, mp.log_pos hc,
    mp.log_pos (two_pos (α := ℝ)), mp.log_pos hs, fin_mul, pure_eq_ok,
    f, e, ← logistic.sech_half]
  have e4 : ∀ a : ℝ, 2 * (a ^ 2 / 4) = a ^ 2 / 2 := fun a => by ring
  rw [Real.log_div _ hs.ne', e4, Real.log_div (pow_pos hc 2).ne' two_ne_zero, Real.log_pow]
  · simp
  · rw [e4]; positivity
theorem logpdf_lt (hs : 0 < s) {x : ℝ} (h : x < loc) :
    logpdf (fin x) (fin loc) (fin s) = .ok ninf := by
  simp [logpdf, validateLocScale_ok _ hs, h]
theorem f_pos {z : ℝ} (h : ¬ z < 0) : 0 < f z := by
  rw [f, if_neg h]; have := logistic.f_pos z; positivity
theorem f_zero (hs : 0 < s) : ∀ x, x ∉ Ici loc → f ((x - loc) / s) / s = 0 := by
  intro x hx
  have : (x - loc) / s < 0 := (affine_lt_zero hs).2 (by simpa using hx)
  simp [f, this]
theorem pdf_returns (hs : 0 < s) (x : ℝ) : Spec.Returns (pdf (fin x) (fin loc) (fin s)) :=
  ⟨_, pdf_eval hs x⟩
theorem logpdf_returns (hs : 0 < s) (x : ℝ) :
    Spec.Returns (logpdf (fin x) (fin loc) (fin s)) := by
  by_cases h : x < loc
  · exact ⟨_, logpdf_lt hs h⟩
  · exact ⟨_, logpdf_ge hs h⟩

theorem isDist_std : IsDist F f := by
  have hl := logistic.isDist_std
  have hd : ∀ x, HasDerivAt (fun z => 2 * logistic.F z - 1) (2 * logistic.f x) x :=
    fun x => ((logistic.hasDerivAt_F x).const_mul 2).sub_const 1
  refine isDist_Ioi (a := 0) (G := fun z => 2 * logistic.F z - 1) ?_ ?_ ?_ ?_ ?_ ?_ ?_ ?_ ?_
  · intro x hx
    rcases hx.eq_or_lt with rfl | h
    · simp [F, logistic.F]; norm_num
    · simp [F, h]
  · intro x hx; simp [F, hx.not_gt]
  · simp [logistic.F]; norm_num
  · exact (hd 0).continuousAt.continuousWithinAt
  · intro x hx; simp [f, hx]
  · exact (f_pos (lt_irrefl 0)).le
  · intro x hx; rw [f, if_neg hx.not_gt]; exact hd x
  · intro x hx; exact (f_pos hx.not_gt).le
  · have := (hl.lim1.const_mul 2).sub_const 1
    convert this using 2; norm_num

theorem isDist (hs : 0 < s) :
    IsDist (fun x => F ((x - loc) / s)) (fun x => f ((x - loc) / s) / s) := isDist_std.affine loc hs

theorem invcdf_eval (hs : 0 < s) {p : ℝ} (h0 : 0 < p) (h1 : p < 1) :
    invcdf (fin p) (fin loc) (fin s) = .ok (fin (loc + s * Q p)) := by
  simp only [invcdf, validateP_ok h0.le h1.le, validateLocScale_ok _ hs, ok_bind, one_def,
    zero_def, fin_eq, h0.ne', h1.ne, if_false, neg_fin, mp_log1p_neg h1,
    mp.log1p_pos (show -1 < p by linarith), fin_sub, fin_mul, pure_eq_ok, Q]
  congr 2; ring
theorem invsf_eval (hs : 0 < s) {p : ℝ} (h0 : 0 < p) (h1 : p < 1) :
    invsf (fin p) (fin loc) (fin s) = .ok (fin (loc + s * Q (1 - p))) := by
  have h2 : (0:ℝ) < 1 - p / 2 := by linarith
  have h3 : 0 < p / 2 / (1 - p / 2) := by positivity
  simp only [invsf, validateP_ok h0.le h1.le, validateLocScale_ok _ hs, ok_bind, one_def,
    zero_def, fin_eq, h0.ne', h1.ne, if_false, ofNat_def, fin_div _ (two_ne_zero (α := ℝ)),
    fin_sub, fin_div _ h2.ne', mp.log_pos h3, fin_mul, pure_eq_ok, Q]
  have e : p / 2 / (1 - p / 2) = p / (1 + (1 - p)) := by field_simp; ring
  rw [e, Real.log_div h0.ne' (by linarith), sub_sub_cancel]
  congr 2; ring

theorem F_Q (_ : 0 < s) {p : ℝ} (h0 : 0 < p) (h1 : p < 1) : Q p ∈ Ioi (0:ℝ) ∧ F (Q p) = p := by
  have hp : 0 < 1 - p := by linarith
  have hp' : 0 < 1 + p := by linarith
  have hQ : 0 < Q p := by
    rw [Q]; linarith [Real.log_lt_log hp (show 1 - p < 1 + p by linarith)]
  refine ⟨hQ, ?_⟩
  rw [F, if_neg hQ.not_gt, Q, logistic.F, neg_sub, Real.exp_sub, Real.exp_log hp, Real.exp_log hp']
  field_simp; ring

theorem Q_F (_ : 0 < s) {z : ℝ} (hz : z ∈ Ioi (0:ℝ)) : 0 < F z ∧ F z < 1 ∧ Q (F z) = z := by
  have h : 0 < z := hz
  have he : Real.exp (-z) < 1 := Real.exp_lt_one_iff.2 (by linarith)
  have hpos := Real.exp_pos (-z)
  have hd := logistic.den_pos z
  have e : F z = (1 - Real.exp (-z)) / (1 + Real.exp (-z)) := by
    rw [F, if_neg h.not_gt, logistic.F]; field_simp; ring
  refine ⟨?_, ?_, ?_⟩
  · rw [e]; exact div_pos (by linarith) hd
  · rw [e, div_lt_one hd]; linarith
  · have e1 : 1 + F z = 2 / (1 + Real.exp (-z)) := by rw [e]; field_simp; ring
    have e2 : 1 - F z = 2 * Real.exp (-z) / (1 + Real.exp (-z)) := by rw [e]; field_simp; ring
    rw [Q, e1, e2, Real.log_div two_ne_zero hd.ne', Real.log_div (by positivity) hd.ne',
      Real.log_mul two_ne_zero hpos.ne', Real.log_exp]
    ring

theorem f_le (z : ℝ) : f z ≤ f 0 := by
  by_cases h : z < 0
  · rw [f, if_pos h]; exact (f_pos (lt_irrefl 0)).le
  · rw [f, if_neg h, f, if_neg (lt_irrefl 0)]; linarith [logistic.f_le z]

end Mpsci.half_logistic
