import Verif.Model.Dist.Uniform
import Verif.Lemmas.Common
import Verif.Lemmas.Helpers

namespace Mpsci.uniform

open Classical Num common Filter Topology Set

variable {a b : ℝ}

noncomputable def F (a b x : ℝ) : ℝ := if x < a then 0 else if b < x then 1 else (x - a) / (b - a)
noncomputable def f (a b x : ℝ) : ℝ := if x < a ∨ b < x then 0 else 1 / (b - a)
noncomputable def Q (a b p : ℝ) : ℝ := a + p * (b - a)

theorem validate_ok (h : a < b) : validate (fin a) (fin b) = .ok (fin a, fin b) := by
  simp [validate, h]
theorem validate_bad (h : ¬ a < b) : validate (fin a) (fin b) = .error .valueError := by
  simp [validate, not_lt.1 h]

theorem cdf_eval (h : a < b) (x : ℝ) :
    cdf (fin x) (fin a) (fin b) = .ok (fin (F a b x)) := by
  have : b - a ≠ 0 := by linarith
  by_cases h1 : x < a
  · simp [cdf, validate_ok h, F, h1]
  · by_cases h2 : b < x
    · simp [cdf, validate_ok h, F, h1, h2]
    · simp [cdf, validate_ok h, F, h1, h2, fin_div _ this]
theorem sf_eval (h : a < b) (x : ℝ) :
    sf (fin x) (fin a) (fin b) = .ok (fin (1 - F a b x)) := by
  have : b - a ≠ 0 := by linarith
  by_cases h1 : x < a
  · simp [sf, validate_ok h, F, h1]
  · by_cases h2 : b < x
    · simp [sf, validate_ok h, F, h1, h2]
    · simp only [sf, validate_ok h, F, h1, h2, fin_div _ this, ok_bind, fin_lt, gt_iff, if_false,
        fin_sub]
      congr 2; field_simp; ring
theorem pdf_eval (h : a < b) (x : ℝ) :
    pdf (fin x) (fin a) (fin b) = .ok (fin (f a b x)) := by
  have : b - a ≠ 0 := by linarith
  by_cases h1 : x < a ∨ b < x
  · simp [pdf, validate_ok h, f, h1]
  · simp only [pdf, validate_ok h, f, h1, ok_bind, fin_lt, gt_iff, if_false, fin_sub, one_def,
      fin_div _ this]
theorem logpdf_in (h : a < b) {x : ℝ} (hx : x ∈ Icc a b) :
    logpdf (fin x) (fin a) (fin b) = .ok (fin (Real.log (f a b x))) := by
  have h0 : 0 < b - a := by linarith
  have h1 : ¬ (x < a ∨ b < x) := not_or.2 ⟨not_lt.2 hx.1, not_lt.2 hx.2⟩
  simp [logpdf, validate_ok h, f, h1, mp.log_pos h0]
theorem logpdf_out (h : a < b) {x : ℝ} (hx : x ∉ Icc a b) :
    logpdf (fin x) (fin a) (fin b) = .ok ninf := by
  have h1 : x < a ∨ b < x := by
    by_contra h'; push Not at h'; exact hx h'
  simp [logpdf, validate_ok h, h1]
theorem f_pos (h : a < b) {x : ℝ} (hx : x ∈ Icc a b) : 0 < f a b x := by
  have h0 : 0 < b - a := by linarith
  have h1 : ¬ (x < a ∨ b < x) := not_or.2 ⟨not_lt.2 hx.1, not_lt.2 hx.2⟩
  rw [f, if_neg h1]; positivity
theorem f_zero (_ : a < b) : ∀ x, x ∉ Icc a b → f a b x = 0 := by
  intro x hx
  have h1 : x < a ∨ b < x := by
    by_contra h'; push Not at h'; exact hx h'
  rw [f, if_pos h1]
theorem pdf_returns (h : a < b) (x : ℝ) : Spec.Returns (pdf (fin x) (fin a) (fin b)) :=
  ⟨_, pdf_eval h x⟩
theorem logpdf_returns (h : a < b) (x : ℝ) : Spec.Returns (logpdf (fin x) (fin a) (fin b)) := by
  by_cases hx : x ∈ Icc a b
  · exact ⟨_, logpdf_in h hx⟩
  · exact ⟨_, logpdf_out h hx⟩

theorem isDist (h : a < b) : IsDist (F a b) (f a b) := by
  have h0 : 0 < b - a := by linarith
  refine isDist_Icc (G := fun x => (x - a) / (b - a)) h ?_ ?_ ?_ ?_ ?_ ?_ ?_ ?_ ?_ ?_ ?_ ?_
  · intro x hx
    rcases hx.eq_or_lt with rfl | h'
    · simp [F, h.not_gt]
    · simp [F, h']
  · intro x hx
    have : ¬ x < a := by linarith
    rcases hx.eq_or_lt with rfl | h'
    · simp [F, h.not_gt, h0.ne']
    · simp [F, h', this]
  · intro x h1 h2; simp [F, h1.not_gt, h2.not_gt]
  · simp
  · simp [h0.ne']
  · fun_prop
  · intro x hx; simp [f, hx]
  · intro x hx; simp [f, hx]
  · exact (f_pos h ⟨le_rfl, h.le⟩).le
  · exact (f_pos h ⟨h.le, le_rfl⟩).le
  · intro x h1 h2
    have : HasDerivAt (fun x => (x - a) / (b - a)) (1 / (b - a)) x :=
      ((hasDerivAt_id x).sub_const a).div_const _
    simpa [f, h1.not_gt, h2.not_gt] using this
  · intro x h1 h2; exact (f_pos h ⟨h1.le, h2.le⟩).le

theorem invcdf_eval (h : a < b) {p : ℝ} (h0 : 0 < p) (h1 : p < 1) :
    invcdf (fin p) (fin a) (fin b) = .ok (fin (Q a b p)) := by
  simp [invcdf, validateP_ok h0.le h1.le, validate_ok h, Q]
theorem invsf_eval (h : a < b) {p : ℝ} (h0 : 0 < p) (h1 : p < 1) :
    invsf (fin p) (fin a) (fin b) = .ok (fin (Q a b (1 - p))) := by
  simp only [invsf, validateP_ok h0.le h1.le, validate_ok h, Q, ok_bind, fin_sub, fin_mul,
    pure_eq_ok]
  congr 2; ring
theorem F_Q (h : a < b) {p : ℝ} (h0 : 0 < p) (h1 : p < 1) :
    Q a b p ∈ Ioo a b ∧ F a b (Q a b p) = p := by
  have hb : 0 < b - a := by linarith
  have e1 : a < Q a b p := by rw [Q]; nlinarith
  have e2 : Q a b p < b := by rw [Q]; nlinarith
  refine ⟨⟨e1, e2⟩, ?_⟩
  rw [F, if_neg e1.not_gt, if_neg e2.not_gt, Q]; field_simp; ring
theorem Q_F (h : a < b) {x : ℝ} (hx : x ∈ Ioo a b) :
    0 < F a b x ∧ F a b x < 1 ∧ Q a b (F a b x) = x := by
  have hb : 0 < b - a := by linarith
  rw [F, if_neg hx.1.not_gt, if_neg hx.2.not_gt]
  refine ⟨div_pos (by linarith [hx.1]) hb, ?_, ?_⟩
  · rw [div_lt_one hb]; linarith [hx.2]
  · rw [Q]; field_simp; ring

end Mpsci.uniform
