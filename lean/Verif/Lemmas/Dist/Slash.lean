import Verif.Model.Dist.Slash
import Verif.Lemmas.NormalDist
import Verif.Lemmas.Inverts
import Verif.Lemmas.Helpers
import Verif.Lemmas.Common
import Verif.Spec.RootFinder
import Mathlib.Analysis.SpecialFunctions.Integrability.Basic

namespace Mpsci.slash

open Classical Num common Filter Topology Set Spec MeasureTheory

noncomputable def d (x : ℝ) : ℝ := phi 0 - phi x
noncomputable def F (x : ℝ) : ℝ := if x = 0 then 1 / 2 else Phi x - d x / x
noncomputable def f (x : ℝ) : ℝ := if x = 0 then phi 0 / 2 else d x / (x * x)

theorem phi_zero : phi 0 = 1 / Real.sqrt (2 * Real.pi) := by simp [phi]

theorem delta_eval (x : ℝ) : delta (fin x) = .ok (fin (d x)) := by
  have hp : 0 ≤ 2 * Real.pi := by have := Real.pi_pos; positivity
  by_cases h : x * x < 9 / 1000000
  · simp only [delta, fin_mul, fin_lt, h, if_true, neg_fin, ofNat_def, fin_div _ (two_ne_zero (α := ℝ)), ok_bind,
      mp.expm1_fin, mp.pi_def, mp.sqrt_nonneg hp, fin_div _ sqrt_two_pi_pos.ne', d, phi]
    congr 2
    rw [← pow_two]
    norm_num; ring
  · simp only [delta, fin_mul, fin_lt, h, if_false, mp.npdf_std', ok_bind, fin_sub, pure_eq_ok, d, zero_def, one_def]

theorem d_even (x : ℝ) : d (-x) = d x := by rw [d, d, phi_even]
theorem phi_lt {x : ℝ} (hx : x ≠ 0) : phi x < phi 0 := by
  rw [phi, phi]
  have : 0 < x ^ 2 := by positivity
  refine div_lt_div_of_pos_right (Real.exp_lt_exp.2 ?_) sqrt_two_pi_pos
  simp; linarith
theorem d_pos {x : ℝ} (hx : x ≠ 0) : 0 < d x := sub_pos.2 (phi_lt hx)
theorem f_pos (x : ℝ) : 0 < f x := by
  rw [f]; split_ifs with h
  · have := phi_pos 0; positivity
  · exact div_pos (d_pos h) (mul_self_pos.2 h)

theorem pdf_eval (x : ℝ) : pdf (fin x) = .ok (fin (f x)) := by
  have hp : 0 ≤ 2 * Real.pi := by have := Real.pi_pos; positivity
  have hq : 2 * Real.sqrt (2 * Real.pi) ≠ 0 := by have := sqrt_two_pi_pos; positivity
  by_cases h : x = 0
  · simp only [pdf, h, zero_def, fin_eq, if_true, ofNat_def, mp.pi_def, fin_mul, mp.sqrt_nonneg hp, ok_bind, one_def,
      fin_div _ hq, f, phi_zero]
    congr 2; rw [div_div, mul_comm]
  · simp only [pdf, h, zero_def, fin_eq, if_false, delta_eval, ok_bind, fin_mul, fin_div _ (mul_self_ne_zero.2 h), f]
theorem logpdf_eval (x : ℝ) : logpdf (fin x) = .ok (fin (Real.log (f x))) := by
  by_cases h : x = 0
  · subst h
    simp only [logpdf, zero_def, fin_eq, if_true, pdf_eval, ok_bind, mp.log_pos (f_pos 0)]
  · simp only [logpdf, zero_def, fin_eq, h, if_false, delta_eval, ok_bind, mp.log_pos (d_pos h), abs_fin,
      mp.log_pos (abs_pos.2 h), ofNat_def, fin_mul, fin_sub, pure_eq_ok, f, Real.log_abs]
    rw [Real.log_div (d_pos h).ne' (mul_self_ne_zero.2 h), Real.log_mul h h]
    congr 2; ring
theorem cdf_eval (x : ℝ) : cdf (fin x) = .ok (fin (F x)) := by
  by_cases h : x = 0
  · simp only [cdf, h, zero_def, fin_eq, if_true, ofNat_def, one_def, fin_div _ (two_ne_zero (α := ℝ)), F]
  · simp only [cdf, h, zero_def, fin_eq, if_false, delta_eval, ok_bind, fin_div _ h, mp.ncdf_fin, fin_sub, F, pure_eq_ok]
theorem sf_eval (x : ℝ) : sf (fin x) = .ok (fin (1 - F x)) := by
  by_cases h : x = 0
  · simp only [sf, h, zero_def, fin_eq, if_true, ofNat_def, one_def, fin_div _ (two_ne_zero (α := ℝ)), F]
    norm_num
  · simp only [sf, h, zero_def, fin_eq, if_false, delta_eval, ok_bind, fin_div _ h, mp.ncdf_fin, neg_fin, fin_add, F,
      pure_eq_ok, Phi_neg]
    congr 2; ring

theorem hasDerivAt_F {x : ℝ} (hx : x ≠ 0) : HasDerivAt F (f x) x := by
  have h1 : HasDerivAt (fun x => Phi x - d x / x) (f x) x := by
    have := (hasDerivAt_Phi x).sub (((hasDerivAt_phi x).const_sub (phi 0)).div (hasDerivAt_id' x) hx)
    refine this.congr_deriv ?_
    simp only [f, hx, if_false, d]
    field_simp; ring
  refine h1.congr_of_eventuallyEq ?_
  filter_upwards [isOpen_ne.mem_nhds hx] with y hy
  rw [F, if_neg hy]

theorem continuous_F : Continuous F := by
  refine continuous_iff_continuousAt.2 fun x => ?_
  rcases eq_or_ne x 0 with rfl | hx
  · have h0 : HasDerivAt phi 0 0 := by simpa using hasDerivAt_phi 0
    have h1 := hasDerivAt_iff_tendsto_slope.1 h0
    have h2 : Tendsto (fun x => d x / x) (𝓝[≠] 0) (𝓝 0) := by
      refine (neg_zero (G := ℝ) ▸ h1.neg).congr fun x => ?_
      rw [slope_def_field, d, sub_zero, ← neg_div, neg_sub]
    have h3 := ((hasDerivAt_Phi 0).continuousAt.tendsto.mono_left (nhdsWithin_le_nhds (s := {0}ᶜ))).sub h2
    rw [continuousAt_iff_punctured_nhds]
    have e : F 0 = Phi 0 - 0 := by simp [F, Phi_zero]
    rw [e]
    refine h3.congr' ?_
    filter_upwards [self_mem_nhdsWithin] with y hy
    have hy' : y ≠ 0 := hy
    rw [F, if_neg hy']
  · exact (hasDerivAt_F hx).continuousAt

theorem d_div_tendsto {l : Filter ℝ} (hl : Tendsto (fun x : ℝ => x⁻¹) l (𝓝 0)) : Tendsto (fun x => d x / x) l (𝓝 0) := by
  have hb : ∀ x, |d x| ≤ phi 0 := fun x => by
    rw [d, abs_of_nonneg (sub_nonneg.2 (phi_le x))]; linarith [phi_pos x]
  have h := hl.abs.const_mul (phi 0)
  rw [abs_zero, mul_zero] at h
  refine squeeze_zero_norm (fun x => ?_) h
  rw [Real.norm_eq_abs, div_eq_mul_inv, abs_mul]
  exact mul_le_mul_of_nonneg_right (hb x) (abs_nonneg _)

theorem isDist : IsDist F f := by
  refine isDist_kink (a := 0) continuous_F (fun x hx => hasDerivAt_F hx) (fun x => (f_pos x).le) ?_ ?_
  · have h := Phi_atBot.sub (d_div_tendsto tendsto_inv_atBot_zero)
    rw [sub_zero] at h
    refine h.congr' ?_
    filter_upwards [eventually_lt_atBot 0] with x hx
    rw [F, if_neg hx.ne]
  · have h := Phi_atTop.sub (d_div_tendsto tendsto_inv_atTop_zero)
    rw [sub_zero] at h
    refine h.congr' ?_
    filter_upwards [eventually_gt_atTop 0] with x hx
    rw [F, if_neg hx.ne']

theorem strictMono_F : StrictMono F := by
  refine StrictMonoOn.Iic_union_Ici (a := 0) ?_ ?_
  · refine strictMonoOn_of_deriv_pos (convex_Iic 0) continuous_F.continuousOn fun x hx => ?_
    rw [interior_Iic] at hx
    rw [(hasDerivAt_F (ne_of_lt hx)).deriv]; exact f_pos x
  · refine strictMonoOn_of_deriv_pos (convex_Ici 0) continuous_F.continuousOn fun x hx => ?_
    rw [interior_Ici] at hx
    rw [(hasDerivAt_F (ne_of_gt hx)).deriv]; exact f_pos x

theorem F_mem (x : ℝ) : 0 < F x ∧ F x < 1 :=
  ⟨(isDist.nonneg (x - 1)).trans_lt (strictMono_F (sub_one_lt x)), (strictMono_F (lt_add_one x)).trans_le (isDist.le_one (x + 1))⟩

theorem F_surj {p : ℝ} (h0 : 0 < p) (h1 : p < 1) : ∃ x, F x = p :=
  mem_range_of_exists_le_of_exists_ge continuous_F
    ((isDist.lim0.eventually (Iio_mem_nhds h0)).exists.imp fun _ h => le_of_lt h)
    ((isDist.lim1.eventually (Ioi_mem_nhds h1)).exists.imp fun _ h => le_of_lt h)

theorem F_neg (x : ℝ) : F (-x) = 1 - F x := by
  rcases eq_or_ne x 0 with rfl | h
  · simp [F]; norm_num
  · rw [F, F, if_neg h, if_neg (neg_ne_zero.2 h), d_even, Phi_neg, div_neg]; ring

theorem invcdf_spec {findroot : (Num → M Num) → Num → M Num} (hr : NewtonFinder findroot) {p : ℝ} (h0 : 0 < p)
    (h1 : p < 1) : ∃ x, invcdf findroot (fin p) = .ok (fin x) ∧ F x = p := by
  by_cases hp : p = 1 / 2
  · refine ⟨0, ?_, by simp [F, hp]⟩
    simp only [invcdf, zero_def, one_def, mp.npdf_std', ok_bind, validateP_ok h0.le h1.le, fin_eq, h0.ne', h1.ne, if_false,
      if_pos (show p = 1 / 2 from hp), pure_eq_ok]
  have hq : (1 - p) ≠ 0 := by linarith
  obtain ⟨x0, e0⟩ : ∃ x0 : ℝ, (if fin p > fin (1 / 2) then fin (phi 0) /. (fin 1 - fin p) else (-fin (phi 0)) /. fin p) =
      .ok (fin x0) := by
    split_ifs
    · exact ⟨_, by rw [fin_sub, fin_div _ hq]⟩
    · exact ⟨_, by rw [neg_fin, fin_div _ h0.ne']⟩
  obtain ⟨y, hy⟩ := F_surj h0 h1
  obtain ⟨r, hr1, hr2⟩ := hr (fun x => do return (← cdf x) - fin p) (fun x => F x - p) x0
    (fun x => by simp only [cdf_eval, ok_bind, fin_sub, pure_eq_ok]) ⟨y, by rw [hy, sub_self]⟩
  refine ⟨r, ?_, by linarith⟩
  by_cases h : fin p > fin (1 / 2)
  · rw [if_pos h] at e0
    simp only [invcdf, zero_def, one_def, mp.npdf_std', ok_bind, validateP_ok h0.le h1.le, fin_eq, h0.ne', h1.ne,
      if_false, hp, if_pos h, e0, hr1]
  · rw [if_neg h] at e0
    simp only [invcdf, zero_def, one_def, mp.npdf_std', ok_bind, validateP_ok h0.le h1.le, fin_eq, h0.ne', h1.ne,
      if_false, hp, if_neg h, e0, hr1]

theorem invsf_spec {findroot : (Num → M Num) → Num → M Num} (hr : NewtonFinder findroot) {p : ℝ} (h0 : 0 < p)
    (h1 : p < 1) : ∃ x, invsf findroot (fin p) = .ok (fin x) ∧ 1 - F x = p := by
  by_cases hp : p = 1 / 2
  · refine ⟨0, ?_, by simp [F, hp]; norm_num⟩
    simp only [invsf, zero_def, one_def, mp.npdf_std', ok_bind, validateP_ok h0.le h1.le, fin_eq, h0.ne', h1.ne, if_false,
      if_pos (show p = 1 / 2 from hp), pure_eq_ok]
  have hq : (1 - p) ≠ 0 := by linarith
  obtain ⟨x0, e0⟩ : ∃ x0 : ℝ, (if fin p > fin (1 / 2) then (-fin (phi 0)) /. (fin 1 - fin p) else fin (phi 0) /. fin p) =
      .ok (fin x0) := by
    split_ifs
    · exact ⟨_, by rw [fin_sub, neg_fin, fin_div _ hq]⟩
    · exact ⟨_, by rw [fin_div _ h0.ne']⟩
  obtain ⟨y, hy⟩ := F_surj (p := 1 - p) (by linarith) (by linarith)
  obtain ⟨r, hr1, hr2⟩ := hr (fun x => do return (← sf x) - fin p) (fun x => 1 - F x - p) x0
    (fun x => by simp only [sf_eval, ok_bind, fin_sub, pure_eq_ok]) ⟨y, by rw [hy]; ring⟩
  refine ⟨r, ?_, by linarith⟩
  by_cases h : fin p > fin (1 / 2)
  · rw [if_pos h] at e0
    simp only [invsf, zero_def, one_def, mp.npdf_std', ok_bind, validateP_ok h0.le h1.le, fin_eq, h0.ne', h1.ne,
      if_false, hp, if_pos h, e0, hr1]
  · rw [if_neg h] at e0
    simp only [invsf, zero_def, one_def, mp.npdf_std', ok_bind, validateP_ok h0.le h1.le, fin_eq, h0.ne', h1.ne,
      if_false, hp, if_neg h, e0, hr1]

/-- `x * pdf(x)` is not integrable. -/
theorem not_integrable : ¬ Integrable fun x => x * f x := by
  intro h
  have h1 : IntegrableOn (fun x => x * f x) (Ioi 1) := h.integrableOn
  have hc : 0 < d 1 := d_pos one_ne_zero
  refine not_integrableOn_Ioi_inv (a := 1) ?_
  refine Integrable.mono' (h1.const_mul (d 1)⁻¹) (measurable_inv.aestronglyMeasurable) ?_
  filter_upwards [self_mem_ae_restrict measurableSet_Ioi] with x hx
  have hx0 : 0 < x := one_pos.trans hx
  rw [Real.norm_eq_abs, abs_of_pos (inv_pos.2 hx0), f, if_neg hx0.ne']
  have h2 : d 1 ≤ d x := by
    rw [d, d]
    have : phi x ≤ phi 1 := by
      rw [phi, phi]
      refine div_le_div_of_nonneg_right (Real.exp_le_exp.2 ?_) sqrt_two_pi_pos.le
      have : (1:ℝ) < x := hx
      nlinarith
    linarith
  rw [show x * (d x / (x * x)) = d x / x by field_simp, inv_mul_eq_div, div_div, mul_comm, ← div_div, inv_eq_one_div]
  exact div_le_div_of_nonneg_right ((one_le_div hc).2 h2) hx0.le

theorem f_le (y : ℝ) : f y ≤ f 0 := by
  rcases eq_or_ne y 0 with rfl | h
  · exact le_rfl
  · rw [f, f, if_neg h, if_pos rfl, div_le_div_iff₀ (mul_self_pos.2 h) two_pos, d]
    have h1 : phi y = phi 0 * Real.exp (-y ^ 2 / 2) := by rw [phi, phi]; simp; ring
    rw [h1]
    have h2 := Real.add_one_le_exp (-y ^ 2 / 2)
    nlinarith [phi_pos 0]

end Mpsci.slash
