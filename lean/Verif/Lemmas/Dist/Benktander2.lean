import Verif.Model.Dist.Benktander2
import Verif.Lemmas.Common
import Verif.Lemmas.Helpers
import Verif.Lemmas.Shape
import Verif.Lemmas.Inverts
import Verif.Lemmas.Int01

namespace Mpsci.benktander2

open Classical Num common Filter Topology Set MeasureTheory Spec

/-- The admissible parameters. -/
def Valid (a b : ℝ) : Prop := 0 < a ∧ 0 < b ∧ b ≤ 1

noncomputable def e (a b x : ℝ) : ℝ := Real.exp (a / b * -(x ^ b - 1))
noncomputable def S (a b x : ℝ) : ℝ := x ^ (b - 1) * e a b x
noncomputable def k (a b x : ℝ) : ℝ := e a b x * x ^ (b - 2) * (a * x ^ b - b + 1)
noncomputable def F (a b x : ℝ) : ℝ := if x < 1 then 0 else 1 - S a b x
noncomputable def f (a b x : ℝ) : ℝ := if x < 1 then 0 else k a b x

variable {a b : ℝ}

theorem validate_ok (h : Valid a b) : validateAB (fin a) (fin b) = .ok (fin a, fin b) := by
  simp [validateAB, h.1.not_ge, h.2.1.not_ge, h.2.2.not_gt]
theorem validate_bad (h : ¬ Valid a b) : validateAB (fin a) (fin b) = .error .valueError := by
  by_cases h1 : a ≤ 0
  · simp [validateAB, h1]
  have h3 : b ≤ 0 ∨ 1 < b := by
    by_contra h3; push Not at h3; exact h ⟨not_le.1 h1, h3.1, h3.2⟩
  simp [validateAB, h1, h3]

theorem S_pos {x : ℝ} (hx : 0 < x) : 0 < S a b x := mul_pos (Real.rpow_pos_of_pos hx _) (Real.exp_pos _)

theorem S_eq {x : ℝ} (hx : 0 < x) : S a b x = Real.exp ((b - 1) * Real.log x + a / b * -(x ^ b - 1)) := by
  rw [S, e, Real.rpow_def_of_pos hx, ← Real.exp_add]; congr 2; ring

theorem cdf_eval (h : Valid a b) (x : ℝ) : cdf (fin x) (fin a) (fin b) = .ok (fin (F a b x)) := by
  by_cases hx : x < 1
  · simp [cdf, validate_ok h, F, hx]
  · have hx0 : 0 < x := by linarith
    simp only [cdf, validate_ok h, ok_bind, one_def, fin_lt, hx, if_false, mp.log_pos hx0, fin_mul,
      fin_div _ h.2.1.ne', fin_add, fin_sub, neg_fin, mp.powm1_pos hx0, mp.expm1_fin, pure_eq_ok, F, S_eq hx0, neg_sub]
theorem sf_eval (h : Valid a b) (x : ℝ) : sf (fin x) (fin a) (fin b) = .ok (fin (1 - F a b x)) := by
  by_cases hx : x < 1
  · simp [sf, validate_ok h, F, hx]
  · have hx0 : 0 < x := by linarith
    simp only [sf, validate_ok h, ok_bind, one_def, fin_lt, hx, if_false, fin_mul,
      fin_div _ h.2.1.ne', fin_sub, neg_fin, mp.powm1_pos hx0, mp.power_pos hx0, mp.exp_fin, pure_eq_ok, F, S, e,
      sub_sub_cancel]
theorem pdf_eval (h : Valid a b) (x : ℝ) : pdf (fin x) (fin a) (fin b) = .ok (fin (f a b x)) := by
  by_cases hx : x < 1
  · simp [pdf, validate_ok h, f, hx]
  · have hx0 : 0 < x := by linarith
    simp only [pdf, validate_ok h, ok_bind, one_def, ofNat_def, fin_lt, hx, if_false, fin_mul, fin_add,
      fin_div _ h.2.1.ne', fin_sub, neg_fin, mp.powm1_pos hx0, mp.power_pos hx0, mp.exp_fin, pure_eq_ok, f, k, e]

theorem p3_pos (h : Valid a b) {x : ℝ} (hx : 0 < x) : 0 < a * x ^ b - b + 1 := by
  have := mul_pos h.1 (Real.rpow_pos_of_pos hx b)
  linarith [h.2.2]
theorem k_pos (h : Valid a b) {x : ℝ} (hx : 0 < x) : 0 < k a b x :=
  mul_pos (mul_pos (Real.exp_pos _) (Real.rpow_pos_of_pos hx _)) (p3_pos h hx)
theorem f_nonneg (h : Valid a b) (x : ℝ) : 0 ≤ f a b x := by
  by_cases hx : x < 1
  · simp [f, hx]
  · rw [f, if_neg hx]; exact (k_pos h (by linarith)).le
theorem f_zero (h : Valid a b) (x : ℝ) (hx : x ∉ Ici (1:ℝ)) : f a b x = 0 := by
  rw [f, if_pos (not_le.1 hx)]

theorem logpdf_pos (h : Valid a b) {x : ℝ} (hx : 1 ≤ x) :
    logpdf (fin x) (fin a) (fin b) = .ok (fin (Real.log (f a b x))) := by
  have hx0 : 0 < x := by linarith
  have h3 := p3_pos h hx0
  have h3' : -1 < a * x ^ b - b := by linarith
  simp only [logpdf, validate_ok h, ok_bind, one_def, ofNat_def, fin_lt, hx.not_gt, if_false, mp.log_pos hx0, fin_mul,
      fin_div _ h.2.1.ne', fin_add, fin_sub, neg_fin, mp.powm1_pos hx0, mp.power_pos hx0, mp.log1p_pos h3', pure_eq_ok,
      f, k, e]
  rw [Real.log_mul (mul_pos (Real.exp_pos _) (Real.rpow_pos_of_pos hx0 _)).ne' h3.ne',
    Real.log_mul (Real.exp_pos _).ne' (Real.rpow_pos_of_pos hx0 _).ne', Real.log_exp, Real.log_rpow hx0, add_comm 1]
theorem logpdf_out (h : Valid a b) {x : ℝ} (hx : x < 1) : logpdf (fin x) (fin a) (fin b) = .ok ninf := by
  simp [logpdf, validate_ok h, hx]
theorem pdf_returns (h : Valid a b) (x : ℝ) : Returns (pdf (fin x) (fin a) (fin b)) := ⟨_, pdf_eval h x⟩
theorem logpdf_returns (h : Valid a b) (x : ℝ) : Returns (logpdf (fin x) (fin a) (fin b)) := by
  by_cases hx : x < 1
  · exact ⟨_, logpdf_out h hx⟩
  · exact ⟨_, logpdf_pos h (not_lt.1 hx)⟩

theorem hasDerivAt_e (hb : b ≠ 0) {x : ℝ} (hx : 0 < x) :
    HasDerivAt (e a b) (-(a * (x ^ (b - 1) * e a b x))) x := by
  refine ((((Real.hasDerivAt_rpow_const (p := b) (Or.inl hx.ne')).sub_const 1).neg.const_mul (a / b)).exp).congr_deriv ?_
  simp only [Pi.neg_apply, e]; field_simp

theorem hasDerivAt_S (hb : b ≠ 0) {x : ℝ} (hx : 0 < x) : HasDerivAt (S a b) (-k a b x) x := by
  refine ((Real.hasDerivAt_rpow_const (p := b - 1) (Or.inl hx.ne')).mul (hasDerivAt_e (a := a) hb hx)).congr_deriv ?_
  have h1 : x ^ (b - 1) * x ^ (b - 1) = x ^ (b - 2) * x ^ b := by
    rw [← Real.rpow_add hx, ← Real.rpow_add hx]; congr 1; ring
  have h2 : b - 1 - 1 = b - 2 := by ring
  rw [k, h2]; linear_combination -a * e a b x * h1

theorem tendsto_e (h : Valid a b) (s : ℝ) : Tendsto (fun x => x ^ s * e a b x) atTop (𝓝 0) := by
  have hr : 0 < a / b := div_pos h.1 h.2.1
  have h1 := (tendsto_rpow_mul_exp_neg_mul_atTop_nhds_zero (s / b) (a / b) hr).comp (tendsto_rpow_atTop h.2.1)
  have h2 := h1.const_mul (Real.exp (a / b))
  rw [mul_zero] at h2
  refine h2.congr' ?_
  filter_upwards [eventually_gt_atTop 0] with x hx
  simp only [Function.comp]
  rw [← Real.rpow_mul hx.le, mul_div_cancel₀ _ h.2.1.ne', mul_left_comm, ← Real.exp_add, e]
  congr 2; ring

theorem isDist (h : Valid a b) : IsDist (F a b) (f a b) := by
  refine isDist_Ioi (a := 1) (G := fun x => 1 - S a b x) (fun x hx => ?_)
    (fun x hx => by rw [F, if_neg hx.not_gt]) (by simp [S, e]) ?_ (fun x hx => by rw [f, if_pos hx]) (f_nonneg h _)
    (fun x hx => ?_) (fun x _ => f_nonneg h x) ?_
  · rcases hx.eq_or_lt with rfl | hx
    · simp [F, S, e]
    · rw [F, if_pos hx]
  · exact ((hasDerivAt_S h.2.1.ne' one_pos).const_sub 1).continuousAt.continuousWithinAt
  · refine ((hasDerivAt_S h.2.1.ne' (by linarith)).const_sub 1).congr_deriv ?_
    rw [neg_neg, f, if_neg hx.not_gt]
  · have := (tendsto_e h (b - 1)).const_sub 1
    rwa [sub_zero] at this

theorem strictAntiOn_S (h : Valid a b) : StrictAntiOn (S a b) (Ici 1) := by
  have h0 : ∀ x ∈ Ici (1:ℝ), 0 < x := fun x hx => lt_of_lt_of_le one_pos hx
  refine strictAntiOn_of_deriv_neg (convex_Ici _)
    (fun x hx => (hasDerivAt_S h.2.1.ne' (h0 x hx)).continuousAt.continuousWithinAt) fun x hx => ?_
  rw [interior_Ici] at hx
  rw [(hasDerivAt_S h.2.1.ne' (h0 x (Ioi_subset_Ici_self hx))).deriv, neg_lt_zero]
  exact k_pos h (h0 x (Ioi_subset_Ici_self hx))

theorem F_mem (h : Valid a b) {x : ℝ} (hx : x ∈ Ioi (1:ℝ)) :
    F a b x = 1 - S a b x ∧ 0 < F a b x ∧ F a b x < 1 := by
  have e' : F a b x = 1 - S a b x := by rw [F, if_neg (not_lt.2 hx.le)]
  refine ⟨e', ?_, ?_⟩
  · have := strictAntiOn_S h (mem_Ici.2 le_rfl) (mem_Ici.2 hx.le) hx
    have h0 : S a b 1 = 1 := by simp [S, e]
    rw [e']; linarith
  · have := S_pos (a := a) (b := b) (lt_trans one_pos hx)
    rw [e']; linarith

theorem injOn_F (h : Valid a b) : InjOn (F a b) (Ioi 1) := by
  intro x hx y hy h'
  rw [(F_mem h hx).1, (F_mem h hy).1] at h'
  exact (strictAntiOn_S h).injOn (mem_Ici.2 (le_of_lt hx)) (mem_Ici.2 (le_of_lt hy)) (by linarith)

theorem exists_S (h : Valid a b) {p : ℝ} (h0 : 0 < p) (h1 : p < 1) : ∃ x ∈ Ioi (1:ℝ), S a b x = p := by
  have hd := isDist h
  have hF1 : F a b 1 = 0 := by simp [F, S, e]
  obtain ⟨y, hy⟩ := ((hd.lim1.eventually (lt_mem_nhds (show 1 - p < 1 by linarith))).and (eventually_ge_atTop 1)).exists
  obtain ⟨x, hx, e'⟩ := intermediate_value_Icc hy.2 hd.cont.continuousOn
    (show 1 - p ∈ Icc (F a b 1) (F a b y) from ⟨by linarith, hy.1.le⟩)
  have hx1 : x ≠ 1 := by rintro rfl; linarith
  have hx1 : 1 < x := lt_of_le_of_ne hx.1 (Ne.symm hx1)
  refine ⟨x, hx1, ?_⟩
  rw [F, if_neg hx1.not_gt] at e'; linarith

theorem solve_eval (h : Valid a b) (hb : b ≠ 1) {x : ℝ} (hx : 0 < x) :
    solve (fin (S a b x)) (fin a) (fin b) = .ok (fin x) := by
  obtain ⟨ha, hb0, hb1⟩ := h
  have h1 : 0 < 1 - b := by have := lt_of_le_of_ne hb1 hb; linarith
  have hc : 0 < a / (1 - b) := div_pos ha h1
  have hxb := Real.rpow_pos_of_pos hx b
  have key : a / (1 - b) * Real.exp (a / (1 - b)) * S a b x ^ (-b / (1 - b)) =
      (a / (1 - b) * x ^ b) * Real.exp (a / (1 - b) * x ^ b) := by
    have e1 : S a b x ^ (-b / (1 - b)) = x ^ b * Real.exp (-(a / (1 - b)) + a / (1 - b) * x ^ b) := by
      rw [S_eq hx, ← Real.exp_mul, Real.rpow_def_of_pos hx b, ← Real.exp_add]
      rw [← Real.rpow_def_of_pos hx b]
      congr 1; field_simp; ring
    rw [e1, mul_mul_mul_comm, ← Real.exp_add]; congr 2; ring
  simp only [solve, one_def, fin_sub, fin_div _ h1.ne', ok_bind, mp.exp_fin, fin_mul, neg_fin,
    mp.power_pos (S_pos (a := a) (b := b) hx), key]
  rw [mp.lambertw_eval (by have := mul_pos hc hxb; linarith), ok_bind, fin_div _ hc.ne', ok_bind, fin_div _ hb0.ne', ok_bind,
    mul_div_cancel_left₀ _ hc.ne', mp.power_pos hxb, ← Real.rpow_mul hx.le, mul_one_div_cancel hb0.ne', Real.rpow_one]

theorem log_S_one {x : ℝ} (hx : 0 < x) (ha : a ≠ 0) : 1 - Real.log (S a 1 x) / a = x := by
  rw [S_eq hx, Real.log_exp]; simp; field_simp; ring

theorem invcdf_spec (h : Valid a b) {p : ℝ} (h0 : 0 < p) (h1 : p < 1) :
    ∃ x ∈ Ioi (1:ℝ), invcdf (fin p) (fin a) (fin b) = .ok (fin x) ∧ F a b x = p := by
  obtain ⟨x, hx, hS⟩ := exists_S h (p := 1 - p) (by linarith) (by linarith)
  have hx0 : 0 < x := lt_trans one_pos hx
  refine ⟨x, hx, ?_, by rw [(F_mem h hx).1, hS]; ring⟩
  by_cases hb : b = 1
  · subst hb
    have := log_S_one hx0 h.1.ne'
    rw [hS] at this
    simp [invcdf, validateP_ok h0.le h1.le, validate_ok h, mp_log1p_neg h1, fin_div _ h.1.ne', this]
  · have := solve_eval h hb hx0
    rw [hS] at this
    simp [invcdf, validateP_ok h0.le h1.le, validate_ok h, hb, this]

theorem invsf_spec (h : Valid a b) {p : ℝ} (h0 : 0 < p) (h1 : p < 1) :
    ∃ x ∈ Ioi (1:ℝ), invsf (fin p) (fin a) (fin b) = .ok (fin x) ∧ 1 - F a b x = p := by
  obtain ⟨x, hx, hS⟩ := exists_S h h0 h1
  have hx0 : 0 < x := lt_trans one_pos hx
  refine ⟨x, hx, ?_, by rw [(F_mem h hx).1, hS]; ring⟩
  by_cases hb : b = 1
  · subst hb
    have := log_S_one hx0 h.1.ne'
    rw [hS] at this
    simp [invsf, validateP_ok h0.le h1.le, validate_ok h, mp.log_pos h0, fin_div _ h.1.ne', this]
  · have := solve_eval h hb hx0
    rw [hS] at this
    simp [invsf, validateP_ok h0.le h1.le, validate_ok h, hb, this]

theorem f_le (h : Valid a b) (x : ℝ) : f a b x ≤ f a b 1 := by
  by_cases hx : x < 1
  · rw [f, if_pos hx]; exact f_nonneg h 1
  obtain ⟨ha, hb0, hb1⟩ := id h
  have hx1 : 1 ≤ x := not_lt.1 hx
  have hx0 : 0 < x := by linarith
  have e1 : ∀ y : ℝ, 0 < y → k a b y = e a b y * (a * y ^ (2 * b - 2) + (1 - b) * y ^ (b - 2)) := fun y hy => by
    have : y ^ (2 * b - 2) = y ^ (b - 2) * y ^ b := by rw [← Real.rpow_add hy]; congr 1; ring
    rw [k, this]; ring
  rw [f, if_neg hx, f, if_neg (lt_irrefl _), e1 x hx0, e1 1 one_pos]
  have hxb := Real.one_le_rpow hx1 hb0.le
  have hr : 0 < a / b := div_pos ha hb0
  have i1 : e a b x ≤ e a b 1 := by
    unfold e; rw [Real.exp_le_exp, Real.one_rpow]; nlinarith
  have i2 : x ^ (2 * b - 2) ≤ 1 := Real.rpow_le_one_of_one_le_of_nonpos hx1 (by linarith)
  have i3 : x ^ (b - 2) ≤ 1 := Real.rpow_le_one_of_one_le_of_nonpos hx1 (by linarith)
  rw [Real.one_rpow, Real.one_rpow]
  have p2 := Real.rpow_pos_of_pos hx0 (2 * b - 2)
  have p3 := Real.rpow_pos_of_pos hx0 (b - 2)
  have : 0 ≤ 1 - b := by linarith
  refine mul_le_mul i1 ?_ (by positivity) (Real.exp_pos _).le
  gcongr

/-! ### Moments -/

theorem moment (h : Valid a b) {n : ℕ} {P : ℝ → ℝ} {l : ℝ}
    (hP : ∀ x, 1 ≤ x → HasDerivAt P (n * (x ^ (n - 1) * S a b x)) x) (hl : Tendsto P atTop (𝓝 l)) :
    Integrable (fun x => x ^ n * f a b x) ∧ ∫ x, x ^ n * f a b x = l + 1 - P 1 := by
  have hd : ∀ x, 1 ≤ x → HasDerivAt (fun x => P x - x ^ n * S a b x) (x ^ n * f a b x) x := by
    intro x hx
    refine ((hP x hx).sub ((hasDerivAt_pow n x).mul (hasDerivAt_S (a := a) h.2.1.ne' (by linarith)))).congr_deriv ?_
    rw [f, if_neg hx.not_gt]; ring
  have hlim : Tendsto (fun x => x ^ n * S a b x) atTop (𝓝 0) := by
    refine (tendsto_e h (n + (b - 1))).congr' ?_
    filter_upwards [eventually_gt_atTop 0] with x hx
    rw [S, Real.rpow_add hx, Real.rpow_natCast, mul_assoc]
  have := integral_Ioi_antideriv (a := 1) (l := l - 0) (g := fun x => x ^ n * f a b x)
    (H := fun x => P x - x ^ n * S a b x)
    (fun x hx => by simp [f, hx]) (hd 1 le_rfl).continuousAt.continuousWithinAt (fun x hx => hd x hx.le)
    (fun x hx => mul_nonneg (pow_nonneg (by linarith) _) (f_nonneg h x))
    (hl.sub hlim)
  refine ⟨this.1, this.2.trans ?_⟩
  simp [S, e]; ring

theorem moment1 (h : Valid a b) : Integrable (fun x => x ^ 1 * f a b x) ∧ ∫ x, x ^ 1 * f a b x = 1 + 1 / a := by
  have ha := h.1
  have := moment h (n := 1) (P := fun x => -(1 / a) * e a b x) (l := -(1 / a) * 0) (fun x hx => by
    refine ((hasDerivAt_e h.2.1.ne' (by linarith)).const_mul _).congr_deriv ?_
    simp [S]; field_simp) ((by simpa using tendsto_e h 0 : Tendsto (fun x => e a b x) atTop (𝓝 0)).const_mul _)
  refine ⟨this.1, this.2.trans ?_⟩
  simp [e]

theorem moment2 (h : Valid a b) : Integrable (fun x => x ^ 2 * f a b x) ∧
    ∫ x, x ^ 2 * f a b x = 1 + 2 / a + 2 / (a * b) * (Real.exp (a / b) * expintR (1 - 1 / b) (a / b)) := by
  obtain ⟨ha, hb, hb1⟩ := id h
  have hr : 0 < a / b := div_pos ha hb
  set g : ℝ → ℝ := fun t => t ^ (-(1 - 1 / b)) * Real.exp (-(a / b * t)) with hg
  have hcg : ∀ t : ℝ, 0 < t → ContinuousAt g t := fun t ht =>
    ((Real.continuousAt_rpow_const _ _ (Or.inl ht.ne'))).mul (by fun_prop)
  have hgi : IntegrableOn g (Ioi 1) := by
    have : IntegrableOn (fun t : ℝ => t ^ (-(1 - 1 / b)) * Real.exp (-(a / b) * t ^ (1:ℝ))) (Ioi 0) :=
      integrableOn_rpow_mul_exp_neg_mul_rpow (by have : 0 < 1 / b := by positivity
                                                 linarith) one_pos hr
    refine MeasureTheory.IntegrableOn.congr_fun (this.mono_set (Ioi_subset_Ioi zero_le_one)) (fun t _ => ?_) measurableSet_Ioi
    simp only [hg, Real.rpow_one, neg_mul]
  have hPhi : ∀ y : ℝ, 1 ≤ y → HasDerivAt (fun y => ∫ t in (1:ℝ)..y, g t) (g y) y := fun y hy => by
    have hc : ContinuousOn g (uIcc 1 y) := fun t ht => by
      rw [uIcc_of_le hy] at ht
      exact (hcg t (by linarith [ht.1])).continuousWithinAt
    refine intervalIntegral.integral_hasDerivAt_right hc.intervalIntegrable ?_ (hcg y (by linarith))
    have hco : ContinuousOn g (Ioi 0) := fun t ht => (hcg t ht).continuousWithinAt
    exact hco.stronglyMeasurableAtFilter isOpen_Ioi y (show (0:ℝ) < y by linarith)
  have := moment h (n := 2) (P := fun x => -(2 / a) * (x ^ (1:ℝ) * e a b x)
      + 2 / (a * b) * (Real.exp (a / b) * ∫ t in (1:ℝ)..(x ^ b), g t))
    (l := -(2 / a) * 0 + 2 / (a * b) * (Real.exp (a / b) * ∫ t in Ioi (1:ℝ), g t)) (fun x hx => by
      have hx0 : 0 < x := by linarith
      have d1 := ((Real.hasDerivAt_rpow_const (p := 1) (Or.inl hx0.ne')).mul (hasDerivAt_e (a := a) hb.ne' hx0)).const_mul (-(2 / a))
      have d2 := (((hPhi (x ^ b) (Real.one_le_rpow hx hb.le)).comp x
        (Real.hasDerivAt_rpow_const (p := b) (Or.inl hx0.ne'))).const_mul (Real.exp (a / b))).const_mul (2 / (a * b))
      refine (d1.add d2).congr_deriv ?_
      have e1 : Real.exp (a / b) * (g (x ^ b) * (b * x ^ (b - 1))) = b * e a b x := by
        simp only [hg]
        rw [← Real.rpow_mul hx0.le, show b * -(1 - 1 / b) = 1 - b by field_simp; ring]
        have : x ^ (1 - b) * x ^ (b - 1) = 1 := by rw [← Real.rpow_add hx0]; simp
        have e2 : Real.exp (a / b) * Real.exp (-(a / b * x ^ b)) = e a b x := by
          rw [e, ← Real.exp_add]; congr 1; ring
        linear_combination b * e a b x * this + b * (x ^ (1 - b) * x ^ (b - 1)) * e2
      rw [e1]
      simp only [S, Nat.cast_ofNat, Real.rpow_one, sub_self, Real.rpow_zero]
      norm_num
      field_simp
      ring)
    (((tendsto_e h 1).const_mul _).add (((intervalIntegral_tendsto_integral_Ioi 1 hgi
      (tendsto_rpow_atTop hb)).const_mul _).const_mul _))
  refine ⟨this.1, this.2.trans ?_⟩
  simp [e, expintR, hg]; ring

theorem hasMV (h : Valid a b) : HasMV (f a b) (1 + 1 / a)
    ((-b + 2 * a * Real.exp (a / b) * expintR (1 - 1 / b) (a / b)) / (a ^ 2 * b)) where
  int0 := (isDist h).integrable
  one := (isDist h).integral_one
  int1 := by simpa using (moment1 h).1
  mean := by simpa using (moment1 h).2
  int2 := (moment2 h).1
  second := by
    have ha := h.1
    have hb := h.2.1
    rw [(moment2 h).2]; field_simp; ring

end Mpsci.benktander2
