import Verif.Model.Dist.Cosine
import Verif.Lemmas.Common
import Verif.Lemmas.Helpers
import Verif.Lemmas.Shape
import Verif.Spec.RootFinder
import Mathlib.Analysis.Real.Pi.Bounds

namespace Mpsci.cosine

open Classical Num common Filter Topology Set MeasureTheory Spec

noncomputable def G (x : ℝ) : ℝ := 1 / 2 + (x + Real.sin x) / (2 * Real.pi)
noncomputable def g (x : ℝ) : ℝ := (Real.cos x + 1) / (2 * Real.pi)
noncomputable def F (x : ℝ) : ℝ := if x ≤ -Real.pi then 0 else if Real.pi ≤ x then 1 else G x
noncomputable def f (x : ℝ) : ℝ := if x ≤ -Real.pi ∨ Real.pi ≤ x then 0 else g x

theorem two_pi_ne : 2 * Real.pi ≠ 0 := by have := Real.pi_pos; positivity

theorem pdf_eval (x : ℝ) : pdf (fin x) = .ok (fin (f x)) := by
  by_cases h : x ≤ -Real.pi ∨ Real.pi ≤ x <;>
  simp [pdf, f, h, g, fin_div _ two_pi_ne]

theorem cdf_eval (x : ℝ) : cdf (fin x) = .ok (fin (F x)) := by
  by_cases h : x ≤ -Real.pi
  · simp [cdf, F, h]
  by_cases h' : Real.pi ≤ x <;>
  simp [cdf, F, h, h', G, fin_div _ two_pi_ne]

theorem F_neg (x : ℝ) : F (-x) = 1 - F x := by
  have := Real.pi_pos
  unfold F
  by_cases h1 : x ≤ -Real.pi
  · rw [if_neg (by linarith), if_pos (by linarith), if_pos h1]; ring
  by_cases h2 : Real.pi ≤ x
  · rw [if_pos (by linarith), if_neg h1, if_pos h2]; ring
  rw [if_neg (by linarith), if_neg (by linarith), if_neg h1, if_neg h2, G, G, Real.sin_neg]
  ring

theorem sf_eval (x : ℝ) : sf (fin x) = .ok (fin (1 - F x)) := by
  rw [sf, neg_fin, cdf_eval, F_neg]

theorem cos_gt {x : ℝ} (h1 : -Real.pi < x) (h2 : x < Real.pi) : -1 < Real.cos x := by
  rw [← Real.cos_abs, ← Real.cos_pi]
  exact Real.cos_lt_cos_of_nonneg_of_le_pi (abs_nonneg x) le_rfl (abs_lt.2 ⟨h1, h2⟩)

theorem g_pos {x : ℝ} (h1 : -Real.pi < x) (h2 : x < Real.pi) : 0 < g x := by
  have := cos_gt h1 h2
  have := Real.pi_pos
  exact div_pos (by linarith) (by positivity)

theorem logpdf_eval {x : ℝ} (h1 : -Real.pi < x) (h2 : x < Real.pi) :
    logpdf (fin x) = .ok (fin (Real.log (f x))) := by
  have h := cos_gt h1 h2
  have hp : 0 < 2 * Real.pi := by have := Real.pi_pos; positivity
  have hn : ¬ (x ≤ -Real.pi ∨ Real.pi ≤ x) := by push Not; exact ⟨h1, h2⟩
  have : f x = (1 + Real.cos x) / (2 * Real.pi) := by rw [f, if_neg hn, g, add_comm]
  rw [this, Real.log_div (by linarith) hp.ne']
  simp [logpdf, hn, mp.log1p_pos h, mp.log_pos hp]

theorem hasDerivAt_G (x : ℝ) : HasDerivAt G (g x) x := by
  refine ((((hasDerivAt_id' x).add (Real.hasDerivAt_sin x)).div_const (2 * Real.pi)).const_add (1 / 2)).congr_deriv ?_
  rw [g, add_comm]

theorem isDist : IsDist F f := by
  have hp := Real.pi_pos
  refine isDist_Icc (a := -Real.pi) (b := Real.pi) (G := G) (by linarith) (fun x hx => by simp [F, hx])
    (fun x hx => ?_) (fun x h1 h2 => by rw [F, if_neg h1.not_ge, if_neg h2.not_ge]) ?_ ?_
    (fun x _ => (hasDerivAt_G x).continuousAt.continuousWithinAt)
    (fun x hx => by simp [f, hx.le]) (fun x hx => by simp [f, hx.le]) (by simp [f]) (by simp [f])
    (fun x h1 h2 => ?_) (fun x h1 h2 => ?_)
  · rw [F, if_neg (by linarith), if_pos hx]
  · simp only [G, Real.sin_neg, Real.sin_pi]; field_simp; ring
  · simp only [G, Real.sin_pi]; field_simp; ring
  · have : f x = g x := by rw [f, if_neg (by push Not; exact ⟨h1, h2⟩)]
    rw [this]; exact hasDerivAt_G x
  · rw [f, if_neg (by push Not; exact ⟨h1, h2⟩)]; exact (g_pos h1 h2).le

theorem strictMonoOn_G : StrictMonoOn G (Icc (-Real.pi) Real.pi) := by
  refine strictMonoOn_of_deriv_pos (convex_Icc _ _) (fun x _ => (hasDerivAt_G x).continuousAt.continuousWithinAt)
    fun x hx => ?_
  rw [interior_Icc] at hx
  rw [(hasDerivAt_G x).deriv]; exact g_pos hx.1 hx.2

theorem F_mem {x : ℝ} (hx : x ∈ Ioo (-Real.pi) Real.pi) : F x = G x ∧ 0 < F x ∧ F x < 1 := by
  have hp := Real.pi_pos
  have e : F x = G x := by rw [F, if_neg (not_le.2 hx.1), if_neg (not_le.2 hx.2)]
  have h0 : G (-Real.pi) = 0 := by simp only [G, Real.sin_neg, Real.sin_pi]; field_simp; ring
  have h1 : G Real.pi = 1 := by simp only [G, Real.sin_pi]; field_simp; ring
  refine ⟨e, ?_, ?_⟩
  · rw [e, ← h0]
    exact strictMonoOn_G ⟨le_rfl, by linarith⟩ ⟨hx.1.le, hx.2.le⟩ hx.1
  · rw [e, ← h1]
    exact strictMonoOn_G ⟨hx.1.le, hx.2.le⟩ ⟨by linarith, le_rfl⟩ hx.2

theorem mem_of_F {x p : ℝ} (h0 : 0 < p) (h1 : p < 1) (h : F x = p) : x ∈ Ioo (-Real.pi) Real.pi := by
  by_contra hx
  by_cases hl : x ≤ -Real.pi
  · rw [F, if_pos hl] at h; linarith
  · rw [F, if_neg hl, if_pos (by by_contra h'; exact hx ⟨not_le.1 hl, not_le.1 h'⟩)] at h; linarith

theorem exists_quantile {p : ℝ} (h0 : 0 < p) (h1 : p < 1) : ∃ x, F x = p := by
  have hp := Real.pi_pos
  have := intermediate_value_Icc (a := -Real.pi) (b := Real.pi) (by linarith) isDist.cont.continuousOn
  obtain ⟨x, -, hx⟩ := this (show p ∈ Icc (F (-Real.pi)) (F Real.pi) by
    rw [F, F, if_pos le_rfl, if_neg (by linarith), if_pos le_rfl]; exact ⟨h0.le, h1.le⟩)
  exact ⟨x, hx⟩

/-- The starting point: defined for every `0 < p < 1`. -/
theorem q2_ne {p : ℝ} (h0 : 0.094 ≤ p) (h1 : p ≤ 0.906) :
    (1.0 : ℝ) + (Real.pi * (2 * p - 1)) ^ 2 * (-0.15149046248500425 + (Real.pi * (2 * p - 1)) ^ 2 *
      (0.006293153604697265 + (Real.pi * (2 * p - 1)) ^ 2 * -6.042645518776793e-05)) ≠ 0 := by
  have hpi := Real.pi_lt_d2
  have hpi0 := Real.pi_pos
  have ht : (Real.pi * (2 * p - 1)) ^ 2 ≤ 6.543 := by
    rw [mul_pow]
    have a : Real.pi ^ 2 ≤ 3.15 ^ 2 := by gcongr
    have b : (2 * p - 1) ^ 2 ≤ 0.812 ^ 2 := by
      exact sq_le_sq' (by norm_num at *; linarith) (by norm_num at *; linarith)
    have := mul_le_mul a b (sq_nonneg _) (by norm_num)
    norm_num at this ⊢; linarith
  have ht0 : 0 ≤ (Real.pi * (2 * p - 1)) ^ 2 := sq_nonneg _
  generalize (Real.pi * (2 * p - 1)) ^ 2 = t at *
  have h2 : 0 ≤ t * (0.006293153604697265 + t * -6.042645518776793e-05) :=
    mul_nonneg ht0 (by norm_num; linarith)
  have h3 := mul_nonneg ht0 h2
  norm_num at *
  nlinarith

theorem start_eval {p : ℝ} (h0 : 0 < p) (h1 : p < 1) : ∃ x0, start (fin p) = .ok (fin x0) := by
  have hpi := Real.pi_pos
  have a1 : 0 < 12 * Real.pi * p := by positivity
  have a2 : 0 < 12 * Real.pi * (1 - p) := mul_pos (by positivity) (by linarith)
  by_cases c1 : p < 0.094
  · exact ⟨_, by simp only [start, fin_lt, if_pos c1, cbrt, mp.pi_def, ofNat_def, fin_mul, mp.power_pos a1, ok_bind,
      polyApprox, mp.ipow_fin, one_def, fin_add, fin_sub, pure_eq_ok]; rfl⟩
  by_cases c2 : 0.906 < p
  · exact ⟨_, by simp only [start, fin_lt, if_neg c1, if_pos c2, cbrt, mp.pi_def, ofNat_def, fin_mul, one_def, fin_sub,
      mp.power_pos a2, ok_bind, polyApprox, mp.ipow_fin, fin_add, pure_eq_ok]; rfl⟩
  · have := q2_ne (not_lt.1 c1) (not_lt.1 c2)
    exact ⟨_, by simp only [start, fin_lt, if_neg c1, if_neg c2, mp.pi_def, ofNat_def, fin_mul, one_def, fin_sub,
      p2, q2, mp.ipow_fin, fin_add, fin_div _ this]; rfl⟩

variable {findroot : (Num → M Num) → Num → M Num}

theorem invcdf_spec (hr : NewtonFinder findroot) {p : ℝ} (h0 : 0 < p) (h1 : p < 1) :
    ∃ x ∈ Ioo (-Real.pi) Real.pi, invcdf findroot (fin p) = .ok (fin x) ∧ F x = p := by
  obtain ⟨x0, hx0⟩ := start_eval h0 h1
  obtain ⟨r, hr1, hr2⟩ := hr (fun t => do return (← cdf t) - fin p) (fun x => F x - p) x0
    (fun x => by simp only [cdf_eval, ok_bind, pure_eq_ok, fin_sub])
    (by obtain ⟨x, hx⟩ := exists_quantile h0 h1; exact ⟨x, by rw [hx, sub_self]⟩)
  have h : F r = p := sub_eq_zero.1 hr2
  refine ⟨r, mem_of_F h0 h1 h, ?_, h⟩
  rw [← hr1]
  simp [invcdf, validateP_ok h0.le h1.le, h0.ne', h1.ne, hx0]

theorem F_inj {x y : ℝ} (hx : x ∈ Ioo (-Real.pi) Real.pi) (hy : y ∈ Ioo (-Real.pi) Real.pi) (h : F x = F y) :
    x = y := by
  rw [(F_mem hx).1, (F_mem hy).1] at h
  exact strictMonoOn_G.injOn (Ioo_subset_Icc_self hx) (Ioo_subset_Icc_self hy) h

/-! ### Moments -/

theorem moment {n : ℕ} {H : ℝ → ℝ} (hd : ∀ x, HasDerivAt H (x ^ n * g x) x) :
    Integrable (fun x => x ^ n * f x) ∧ ∫ x, x ^ n * f x = H Real.pi - H (-Real.pi) := by
  have hp := Real.pi_pos
  refine integral_Ioo_of_antideriv (h := fun x => x ^ n * g x) (by linarith) (fun x hx => ?_) (fun x hx => ?_) ?_ hd
  · have : x ≤ -Real.pi ∨ Real.pi ≤ x := by
      by_contra h; push Not at h; exact hx h
    simp [f, this]
  · rw [f, if_neg (by push Not; exact hx)]
  · have := two_pi_ne
    unfold g; fun_prop

theorem moment1 : Integrable (fun x => x ^ 1 * f x) ∧ ∫ x, x ^ 1 * f x = 0 := by
  have h := moment (n := 1) (H := fun x => (x ^ 2 / 2 + x * Real.sin x + Real.cos x) / (2 * Real.pi)) fun x => by
    refine (((((hasDerivAt_pow 2 x).div_const 2).add ((hasDerivAt_id' x).mul (Real.hasDerivAt_sin x))).add
      (Real.hasDerivAt_cos x)).div_const (2 * Real.pi)).congr_deriv ?_
    simp only [g, Nat.cast_ofNat]; ring
  refine ⟨h.1, h.2.trans ?_⟩
  simp only [Real.sin_neg, Real.cos_neg, Real.sin_pi]; ring

theorem moment2 : Integrable (fun x => x ^ 2 * f x) ∧ ∫ x, x ^ 2 * f x = Real.pi ^ 2 / 3 - 2 := by
  have hp := Real.pi_pos
  have h := moment (n := 2) (H := fun x => (x ^ 3 / 3 + x ^ 2 * Real.sin x + 2 * (x * Real.cos x) - 2 * Real.sin x) /
      (2 * Real.pi)) fun x => by
    have hs := Real.hasDerivAt_sin x
    have hc := Real.hasDerivAt_cos x
    refine ((((((hasDerivAt_pow 3 x).div_const 3).add ((hasDerivAt_pow 2 x).mul hs)).add
      (((hasDerivAt_id' x).mul hc).const_mul 2)).sub (hs.const_mul 2)).div_const (2 * Real.pi)).congr_deriv ?_
    simp only [g, Nat.cast_ofNat]; ring
  refine ⟨h.1, h.2.trans ?_⟩
  simp only [Real.sin_neg, Real.cos_neg, Real.sin_pi, Real.cos_pi]; field_simp; ring

theorem moment3 : Integrable (fun x => x ^ 3 * f x) ∧ ∫ x, x ^ 3 * f x = 0 := by
  have h := moment (n := 3) (H := fun x => (x ^ 4 / 4 + x ^ 3 * Real.sin x + 3 * (x ^ 2 * Real.cos x)
      - 6 * (x * Real.sin x) - 6 * Real.cos x) / (2 * Real.pi)) fun x => by
    have hs := Real.hasDerivAt_sin x
    have hc := Real.hasDerivAt_cos x
    refine (((((((hasDerivAt_pow 4 x).div_const 4).add ((hasDerivAt_pow 3 x).mul hs)).add
      (((hasDerivAt_pow 2 x).mul hc).const_mul 3)).sub (((hasDerivAt_id' x).mul hs).const_mul 6)).sub
      (hc.const_mul 6)).div_const (2 * Real.pi)).congr_deriv ?_
    simp only [g, Nat.cast_ofNat]; ring
  refine ⟨h.1, h.2.trans ?_⟩
  simp only [Real.sin_neg, Real.cos_neg, Real.sin_pi]; ring

theorem moment4 : Integrable (fun x => x ^ 4 * f x) ∧
    ∫ x, x ^ 4 * f x = Real.pi ^ 4 / 5 - 4 * Real.pi ^ 2 + 24 := by
  have hp := Real.pi_pos
  have h := moment (n := 4) (H := fun x => (x ^ 5 / 5 + x ^ 4 * Real.sin x + 4 * (x ^ 3 * Real.cos x)
      - 12 * (x ^ 2 * Real.sin x) - 24 * (x * Real.cos x) + 24 * Real.sin x) / (2 * Real.pi)) fun x => by
    have hs := Real.hasDerivAt_sin x
    have hc := Real.hasDerivAt_cos x
    refine ((((((((hasDerivAt_pow 5 x).div_const 5).add ((hasDerivAt_pow 4 x).mul hs)).add
      (((hasDerivAt_pow 3 x).mul hc).const_mul 4)).sub (((hasDerivAt_pow 2 x).mul hs).const_mul 12)).sub
      (((hasDerivAt_id' x).mul hc).const_mul 24)).add (hs.const_mul 24)).div_const (2 * Real.pi)).congr_deriv ?_
    simp only [g, Nat.cast_ofNat]; ring
  refine ⟨h.1, h.2.trans ?_⟩
  simp only [Real.sin_neg, Real.cos_neg, Real.sin_pi, Real.cos_pi]; field_simp; ring

end Mpsci.cosine
