import Verif.Base.Bessel
import Verif.Lemmas.NormalDist
import Verif.Lemmas.Moments
import Verif.Lemmas.Helpers
import Mathlib.MeasureTheory.Integral.IntervalIntegral.IntegrationByParts
import Mathlib.Analysis.SpecialFunctions.Integrals.Basic

/-! The standard ARGUS distribution with parameter `c ≥ 0`. -/

namespace Mpsci.argD

open Filter Topology Set MeasureTheory

noncomputable def Psi (c : ℝ) : ℝ := Phi c - c * phi c - 1 / 2
/-- The survival function in terms of `w = √(1 - z²)` -/
noncomputable def H (c w : ℝ) : ℝ := if c = 0 then w ^ 3 else Psi (c * w) / Psi c
noncomputable def k (c w : ℝ) : ℝ := if c = 0 then 3 else c ^ 3 * phi (c * w) / Psi c
noncomputable def w (z : ℝ) : ℝ := √(1 - z ^ 2)
/-- The density on `(0, 1)` -/
noncomputable def h (c z : ℝ) : ℝ := z * w z * k c (w z)
noncomputable def f (c z : ℝ) : ℝ := if z ∈ Ioo (0:ℝ) 1 then h c z else 0
noncomputable def F (c z : ℝ) : ℝ := if z ≤ 0 then 0 else if 1 ≤ z then 1 else 1 - H c (w z)

theorem Psi_zero : Psi 0 = 0 := by simp [Psi, Phi_zero]
theorem hasDerivAt_Psi (c : ℝ) : HasDerivAt Psi (c ^ 2 * phi c) c := by
  have := ((hasDerivAt_Phi c).sub ((hasDerivAt_id' c).mul (hasDerivAt_phi c))).sub_const (1 / 2)
  refine this.congr_deriv ?_
  ring
theorem continuous_Psi : Continuous Psi := continuous_iff_continuousAt.2 fun c => (hasDerivAt_Psi c).continuousAt
theorem Psi_strictMonoOn : StrictMonoOn Psi (Ici 0) := by
  refine strictMonoOn_of_deriv_pos (convex_Ici 0) continuous_Psi.continuousOn fun x hx => ?_
  rw [interior_Ici] at hx
  have hx : 0 < x := hx
  rw [(hasDerivAt_Psi x).deriv]
  have := phi_pos x
  positivity
theorem Psi_pos {c : ℝ} (hc : 0 < c) : 0 < Psi c := by
  have := Psi_strictMonoOn self_mem_Ici (mem_Ici.2 hc.le) hc
  rwa [Psi_zero] at this

theorem H_zero (c : ℝ) : H c 0 = 0 := by
  rw [H]; split_ifs
  · norm_num
  · rw [mul_zero, Psi_zero, zero_div]
theorem H_one {c : ℝ} (hc : 0 ≤ c) : H c 1 = 1 := by
  rw [H]; split_ifs with h0
  · norm_num
  · rw [mul_one, div_self (Psi_pos (lt_of_le_of_ne hc (Ne.symm h0))).ne']
theorem hasDerivAt_H (c x : ℝ) : HasDerivAt (H c) (x ^ 2 * k c x) x := by
  by_cases h0 : c = 0
  · have e : H c = fun w => w ^ 3 := by funext w; rw [H, if_pos h0]
    rw [e, k, if_pos h0]
    refine (hasDerivAt_pow 3 x).congr_deriv ?_
    norm_num; ring
  · have e : H c = fun w => Psi (c * w) / Psi c := by funext w; rw [H, if_neg h0]
    rw [e, k, if_neg h0]
    have h1 : HasDerivAt (fun w => c * w) c x := by simpa using (hasDerivAt_id' x).const_mul c
    refine (((hasDerivAt_Psi (c * x)).comp x h1).div_const (Psi c)).congr_deriv ?_
    ring
theorem continuous_H (c : ℝ) : Continuous (H c) := continuous_iff_continuousAt.2 fun x => (hasDerivAt_H c x).continuousAt
theorem k_pos {c : ℝ} (hc : 0 ≤ c) (x : ℝ) : 0 < k c x := by
  rw [k]; split_ifs with h0
  · norm_num
  · have h1 := lt_of_le_of_ne hc (Ne.symm h0)
    have := Psi_pos h1
    have := phi_pos (c * x)
    positivity
theorem continuous_k (c : ℝ) : Continuous (k c) := by
  by_cases h0 : c = 0
  · have e : k c = fun _ => 3 := by funext w; rw [k, if_pos h0]
    rw [e]; exact continuous_const
  · have e : k c = fun w => c ^ 3 * phi (c * w) / Psi c := by funext w; rw [k, if_neg h0]
    rw [e]
    have := phi_continuous
    fun_prop
theorem H_strictMonoOn {c : ℝ} (hc : 0 ≤ c) : StrictMonoOn (H c) (Ici 0) := by
  refine strictMonoOn_of_deriv_pos (convex_Ici 0) (continuous_H c).continuousOn fun x hx => ?_
  rw [interior_Ici] at hx
  have hx : 0 < x := hx
  rw [(hasDerivAt_H c x).deriv]
  have := k_pos hc x
  positivity

theorem w_zero : w 0 = 1 := by simp [w]
theorem w_one : w 1 = 0 := by simp [w]
theorem continuous_w : Continuous w := by unfold w; fun_prop
theorem w_nonneg (z : ℝ) : 0 ≤ w z := Real.sqrt_nonneg _
theorem w_pos {z : ℝ} (h : z ∈ Ioo (0:ℝ) 1) : 0 < w z := Real.sqrt_pos.2 (by nlinarith [h.1, h.2])
theorem w_sq {z : ℝ} (h : z ∈ Icc (0:ℝ) 1) : w z ^ 2 = 1 - z ^ 2 := Real.sq_sqrt (by nlinarith [h.1, h.2])
theorem hasDerivAt_w {z : ℝ} (h : z ∈ Ioo (0:ℝ) 1) : HasDerivAt w (-z / w z) z := by
  have h1 : HasDerivAt (fun z : ℝ => 1 - z ^ 2) (-(2 * z)) z := by
    refine ((hasDerivAt_pow 2 z).const_sub 1).congr_deriv ?_
    norm_num
  have h2 : (1 - z ^ 2 : ℝ) ≠ 0 := by nlinarith [h.1, h.2]
  refine (h1.sqrt h2).congr_deriv ?_
  have := (w_pos h).ne'
  rw [← w]; field_simp
theorem w_strictAntiOn : StrictAntiOn w (Icc 0 1) := fun a ha b hb hab =>
  Real.sqrt_lt_sqrt (by nlinarith [hb.1, hb.2]) (by nlinarith [ha.1, hb.2])

theorem continuous_h (c : ℝ) : Continuous (h c) :=
  (continuous_id.mul continuous_w).mul ((continuous_k c).comp continuous_w)
theorem h_pos {c : ℝ} (hc : 0 ≤ c) {z : ℝ} (hz : z ∈ Ioo (0:ℝ) 1) : 0 < h c z :=
  mul_pos (mul_pos hz.1 (w_pos hz)) (k_pos hc _)
theorem f_in {c z : ℝ} (hz : z ∈ Ioo (0:ℝ) 1) : f c z = h c z := if_pos hz
theorem f_out {c z : ℝ} (hz : z ∉ Ioo (0:ℝ) 1) : f c z = 0 := if_neg hz
theorem f_nonneg {c : ℝ} (hc : 0 ≤ c) (z : ℝ) : 0 ≤ f c z := by
  rw [f]; split_ifs with h
  · exact (h_pos hc h).le
  · exact le_rfl

theorem hasDerivAt_G (c : ℝ) {z : ℝ} (hz : z ∈ Ioo (0:ℝ) 1) : HasDerivAt (fun z => 1 - H c (w z)) (h c z) z := by
  refine (((hasDerivAt_H c (w z)).comp z (hasDerivAt_w hz)).const_sub 1).congr_deriv ?_
  have := (w_pos hz).ne'
  rw [h]; field_simp

theorem isDist {c : ℝ} (hc : 0 ≤ c) : IsDist (F c) (f c) := by
  refine isDist_Icc (a := 0) (b := 1) (G := fun z => 1 - H c (w z)) one_pos (fun x hx => if_pos hx)
    (fun x hx => ?_) (fun x h0 h1 => ?_) ?_ ?_ ?_ (fun x hx => f_out fun h => h.1.not_gt hx) (fun x hx => f_out fun h => h.2.not_gt hx)
    (f_nonneg hc 0) (f_nonneg hc 1) (fun x h0 h1 => ?_) (fun x _ _ => f_nonneg hc x)
  · rw [F, if_neg (by linarith), if_pos hx]
  · rw [F, if_neg h0.not_ge, if_neg h1.not_ge]
  · simp only [w_zero, H_one hc, sub_self]
  · simp only [w_one, H_zero, sub_zero]
  · exact (continuous_const.sub ((continuous_H c).comp continuous_w)).continuousOn
  · rw [f_in ⟨h0, h1⟩]; exact hasDerivAt_G c ⟨h0, h1⟩

theorem F_eq {c : ℝ} (hc : 0 ≤ c) {z : ℝ} (hz : z ∈ Icc (0:ℝ) 1) : F c z = 1 - H c (w z) := by
  rw [F]; split_ifs with h0 h1
  · rw [le_antisymm h0 hz.1, w_zero, H_one hc, sub_self]
  · rw [le_antisymm hz.2 h1, w_one, H_zero, sub_zero]
  · rfl
theorem F_zero (c : ℝ) : F c 0 = 0 := if_pos le_rfl
theorem F_one (c : ℝ) : F c 1 = 1 := by rw [F, if_neg (by norm_num), if_pos le_rfl]
theorem F_strictMonoOn {c : ℝ} (hc : 0 ≤ c) : StrictMonoOn (F c) (Icc 0 1) := fun a ha b hb hab => by
  rw [F_eq hc ha, F_eq hc hb]
  have := H_strictMonoOn hc (w_nonneg b) (w_nonneg a) (w_strictAntiOn ha hb hab)
  linarith
theorem F_mem {c : ℝ} (hc : 0 ≤ c) {z : ℝ} (hz : z ∈ Ioo (0:ℝ) 1) : 0 < F c z ∧ F c z < 1 := by
  have h0 := F_strictMonoOn hc ⟨le_rfl, zero_le_one⟩ (Ioo_subset_Icc_self hz) hz.1
  have h1 := F_strictMonoOn hc (Ioo_subset_Icc_self hz) ⟨zero_le_one, le_rfl⟩ hz.2
  rw [F_zero] at h0
  rw [F_one] at h1
  exact ⟨h0, h1⟩
theorem F_surj {c : ℝ} (hc : 0 ≤ c) {p : ℝ} (h0 : 0 < p) (h1 : p < 1) : ∃ z ∈ Ioo (0:ℝ) 1, F c z = p := by
  have := intermediate_value_Ioo (zero_le_one (α := ℝ)) (isDist hc).cont.continuousOn
  rw [F_zero, F_one] at this
  exact this ⟨h0, h1⟩

/-! ### Moments -/

theorem integral_f (c : ℝ) {g : ℝ → ℝ} (hg : Continuous g) :
    Integrable (fun z => g z * f c z) ∧ ∫ z, g z * f c z = ∫ z in (0:ℝ)..1, g z * h c z := by
  have e : (fun z => g z * f c z) = (Ioo (0:ℝ) 1).indicator fun z => g z * h c z := by
    funext x
    by_cases hx : x ∈ Ioo (0:ℝ) 1
    · rw [indicator_of_mem hx, f_in hx]
    · rw [indicator_of_notMem hx, f_out hx, mul_zero]
  have hc := hg.mul (continuous_h c)
  have hi : IntegrableOn (fun z => g z * h c z) (Icc (0:ℝ) 1) := hc.continuousOn.integrableOn_compact isCompact_Icc
  rw [e]
  refine ⟨(integrable_indicator_iff measurableSet_Ioo).2 (hi.mono_set Ioo_subset_Icc_self), ?_⟩
  rw [integral_indicator measurableSet_Ioo, ← integral_Ioc_eq_integral_Ioo, ← intervalIntegral.integral_of_le zero_le_one]

/-- `∫₀¹ w⁴ k(w) dw` -/
noncomputable def J (c w : ℝ) : ℝ := if c = 0 then 3 / 5 * w ^ 5 else (3 * Psi (c * w) - (c * w) ^ 3 * phi (c * w)) / (c ^ 2 * Psi c)
theorem hasDerivAt_J {c : ℝ} (hc : 0 ≤ c) (x : ℝ) : HasDerivAt (J c) (x ^ 4 * k c x) x := by
  by_cases h0 : c = 0
  · have e : J c = fun w => 3 / 5 * w ^ 5 := by funext w; rw [J, if_pos h0]
    rw [e, k, if_pos h0]
    refine ((hasDerivAt_pow 5 x).const_mul (3 / 5)).congr_deriv ?_
    norm_num; ring
  · have e : J c = fun w => (3 * Psi (c * w) - (c * w) ^ 3 * phi (c * w)) / (c ^ 2 * Psi c) := by funext w; rw [J, if_neg h0]
    have hP := (Psi_pos (lt_of_le_of_ne hc (Ne.symm h0))).ne'
    rw [e, k, if_neg h0]
    have h1 : HasDerivAt (fun w => c * w) c x := by simpa using (hasDerivAt_id' x).const_mul c
    refine (((((hasDerivAt_Psi (c * x)).comp x h1).const_mul 3).sub ((h1.pow 3).mul ((hasDerivAt_phi (c * x)).comp x h1))).div_const
      (c ^ 2 * Psi c)).congr_deriv ?_
    simp only [Function.comp_def, Pi.pow_apply]
    field_simp
    norm_num
    ring
theorem J_zero (c : ℝ) : J c 0 = 0 := by
  rw [J]; split_ifs
  · norm_num
  · simp [Psi_zero]

theorem continuous_z2 (c : ℝ) : Continuous fun z => z ^ 2 * h c z := (continuous_pow 2).mul (continuous_h c)
theorem continuous_z1 (c : ℝ) : Continuous fun z => z * h c z := continuous_id.mul (continuous_h c)

theorem second {c : ℝ} (hc : 0 ≤ c) : ∫ z in (0:ℝ)..1, z ^ 2 * h c z = 1 - J c 1 := by
  have hJ : Continuous (J c) := continuous_iff_continuousAt.2 fun x => (hasDerivAt_J hc x).continuousAt
  rw [intervalIntegral.integral_eq_sub_of_hasDerivAt_of_le (f := fun z => J c (w z) - H c (w z)) zero_le_one
    ((hJ.comp continuous_w).sub ((continuous_H c).comp continuous_w)).continuousOn (fun z hz => ?_)
    ((continuous_z2 c).intervalIntegrable 0 1)]
  · simp only [w_one, w_zero, J_zero, H_zero, H_one hc]; ring
  · refine ((((hasDerivAt_J hc (w z)).comp z (hasDerivAt_w hz))).sub ((hasDerivAt_H c (w z)).comp z (hasDerivAt_w hz))).congr_deriv ?_
    have h1 := (w_pos hz).ne'
    have h2 := w_sq (Ioo_subset_Icc_self hz)
    rw [h]
    have e : z ^ 2 = 1 - w z ^ 2 := by linarith
    rw [e]
    field_simp
    ring

/-- The substitution `z = sin (θ/2)` -/
theorem subst_sin {g : ℝ → ℝ} (hg : Continuous g) :
    ∫ z in (0:ℝ)..1, g z = ∫ θ in (0:ℝ)..Real.pi, g (Real.sin (θ / 2)) * (Real.cos (θ / 2) / 2) := by
  have := intervalIntegral.integral_comp_mul_deriv (a := 0) (b := Real.pi) (f := fun θ => Real.sin (θ / 2))
    (f' := fun θ => Real.cos (θ / 2) / 2) (g := g) (fun x _ => by
      have h1 : HasDerivAt (fun θ : ℝ => θ / 2) (1 / 2) x := (hasDerivAt_id' x).div_const 2
      refine ((Real.hasDerivAt_sin (x / 2)).comp x h1).congr_deriv ?_
      ring) (by fun_prop) hg
  simp only [Function.comp_def, zero_div, Real.sin_zero, Real.sin_pi_div_two] at this
  exact this.symm

theorem cos_half_sq (θ : ℝ) : Real.cos (θ / 2) ^ 2 = (1 + Real.cos θ) / 2 := by
  have := Real.cos_sq (θ / 2)
  rw [this, mul_div_cancel₀ θ two_ne_zero]; ring
theorem sin_half_sq (θ : ℝ) : Real.sin (θ / 2) ^ 2 = (1 - Real.cos θ) / 2 := by
  have := Real.sin_sq_add_cos_sq (θ / 2)
  have := cos_half_sq θ
  linarith

theorem sin_sq_exp (b : ℝ) (hb : b ≠ 0) :
    ∫ θ in (0:ℝ)..Real.pi, Real.sin θ ^ 2 * Real.exp (-b * Real.cos θ) = Real.pi * besselI 1 b / b := by
  have h1 : ∫ θ in (0:ℝ)..Real.pi, (Real.sin θ ^ 2 * Real.exp (-b * Real.cos θ) + Real.cos θ * Real.exp (-b * Real.cos θ) / b) = 0 := by
    rw [intervalIntegral.integral_eq_sub_of_hasDerivAt (f := fun θ => Real.sin θ * Real.exp (-b * Real.cos θ) / b) (fun θ _ => ?_)
      (Continuous.intervalIntegrable (by fun_prop) _ _)]
    · simp
    · have h2 : HasDerivAt (fun θ => -b * Real.cos θ) (b * Real.sin θ) θ :=
        ((Real.hasDerivAt_cos θ).const_mul (-b)).congr_deriv (by ring)
      refine (((Real.hasDerivAt_sin θ).mul h2.exp).div_const b).congr_deriv ?_
      field_simp; ring
  rw [intervalIntegral.integral_add (Continuous.intervalIntegrable (by fun_prop) _ _)
    (Continuous.intervalIntegrable (by fun_prop) _ _), intervalIntegral.integral_div] at h1
  have h3 : ∫ θ in (0:ℝ)..Real.pi, Real.cos θ * Real.exp (-b * Real.cos θ) = - (Real.pi * besselI 1 b) := by
    have := intervalIntegral.integral_comp_sub_left (a := 0) (b := Real.pi) (fun θ => Real.cos θ * Real.exp (-b * Real.cos θ)) Real.pi
    rw [sub_zero, sub_self] at this
    rw [← this, besselI, mul_div_cancel₀ _ Real.pi_ne_zero, ← intervalIntegral.integral_neg]
    refine intervalIntegral.integral_congr fun θ _ => ?_
    simp only [Real.cos_pi_sub, Nat.cast_one, one_mul, neg_mul, mul_neg, neg_neg]
    ring
  rw [h3] at h1
  generalize (∫ θ in (0:ℝ)..Real.pi, Real.sin θ ^ 2 * Real.exp (-b * Real.cos θ)) = S at *
  rw [neg_div] at h1
  linarith

theorem sin_sq : ∫ θ in (0:ℝ)..Real.pi, Real.sin θ ^ 2 = Real.pi / 2 := by
  rw [integral_sin_sq]; simp

theorem first_zero : ∫ z in (0:ℝ)..1, z * h 0 z = 3 * Real.pi / 16 := by
  rw [subst_sin (continuous_z1 0), show 3 * Real.pi / 16 = 3 / 8 * (Real.pi / 2) by ring, ← sin_sq,
    ← intervalIntegral.integral_const_mul]
  refine intervalIntegral.integral_congr fun θ hθ => ?_
  rw [uIcc_of_le Real.pi_pos.le] at hθ
  have h1 : 0 ≤ Real.cos (θ / 2) := Real.cos_nonneg_of_neg_pi_div_two_le_of_le (by linarith [hθ.1, Real.pi_pos]) (by linarith [hθ.2])
  have h2 : w (Real.sin (θ / 2)) = Real.cos (θ / 2) := by rw [w, ← Real.cos_sq', Real.sqrt_sq h1]
  have h3 : Real.sin θ = 2 * Real.sin (θ / 2) * Real.cos (θ / 2) := by rw [← Real.sin_two_mul, mul_div_cancel₀ θ two_ne_zero]
  simp only [id, h, h2, h3, k, if_true]
  ring

theorem first_pos {c : ℝ} (hc : 0 < c) :
    ∫ z in (0:ℝ)..1, z * h c z = √(Real.pi / 8) * (c * Real.exp (-(c ^ 2 / 4))) * besselI 1 (c ^ 2 / 4) / Psi c := by
  have hP := (Psi_pos hc).ne'
  have hb : c ^ 2 / 4 ≠ 0 := by positivity
  have h0 := sqrt_two_pi_pos
  have e : √(Real.pi / 8) * (c * Real.exp (-(c ^ 2 / 4))) * besselI 1 (c ^ 2 / 4) / Psi c =
      c ^ 3 * Real.exp (-(c ^ 2 / 4)) / (8 * √(2 * Real.pi) * Psi c) * (Real.pi * besselI 1 (c ^ 2 / 4) / (c ^ 2 / 4)) := by
    have e1 : √(Real.pi / 8) = Real.pi / (2 * √(2 * Real.pi)) := by
      rw [eq_div_iff (by positivity), mul_left_comm, ← Real.sqrt_mul (by positivity),
        show Real.pi / 8 * (2 * Real.pi) = (Real.pi / 2) ^ 2 by ring, Real.sqrt_sq (by positivity)]
      ring
    rw [e1]; field_simp; ring
  rw [e, ← sin_sq_exp _ hb, subst_sin (continuous_z1 c), ← intervalIntegral.integral_const_mul]
  refine intervalIntegral.integral_congr fun θ hθ => ?_
  rw [uIcc_of_le Real.pi_pos.le] at hθ
  have h1 : 0 ≤ Real.cos (θ / 2) := Real.cos_nonneg_of_neg_pi_div_two_le_of_le (by linarith [hθ.1, Real.pi_pos]) (by linarith [hθ.2])
  have h2 : w (Real.sin (θ / 2)) = Real.cos (θ / 2) := by rw [w, ← Real.cos_sq', Real.sqrt_sq h1]
  have h3 : Real.sin θ = 2 * Real.sin (θ / 2) * Real.cos (θ / 2) := by rw [← Real.sin_two_mul, mul_div_cancel₀ θ two_ne_zero]
  have h4 : phi (c * Real.cos (θ / 2)) = Real.exp (-(c ^ 2 / 4)) * Real.exp (-(c ^ 2 / 4) * Real.cos θ) / √(2 * Real.pi) := by
    rw [phi, ← Real.exp_add, mul_pow, cos_half_sq]
    congr 2; ring
  simp only [id, h, h2, h3, k, hc.ne', if_false, h4]
  field_simp
  ring

noncomputable def m (c : ℝ) : ℝ := if c = 0 then 3 * Real.pi / 16 else
  √(Real.pi / 8) * (c * Real.exp (-(c ^ 2 / 4))) * besselI 1 (c ^ 2 / 4) / Psi c

theorem first {c : ℝ} (hc : 0 ≤ c) : ∫ z in (0:ℝ)..1, z * h c z = m c := by
  rw [m]; split_ifs with h0
  · rw [h0, first_zero]
  · exact first_pos (lt_of_le_of_ne hc (Ne.symm h0))

theorem hasMV {c : ℝ} (hc : 0 ≤ c) : HasMV (f c) (m c) (1 - J c 1 - m c ^ 2) := by
  have h1 := integral_f c continuous_id
  have h2 := integral_f c (continuous_pow 2)
  refine ⟨(isDist hc).integrable, (isDist hc).integral_one, h1.1, ?_, h2.1, ?_⟩
  · exact h1.2.trans (first hc)
  · exact h2.2.trans ((second hc).trans (by ring))

/-! ### Mode -/

theorem tangent {x y : ℝ} (hx : 0 < x) (hy : 0 < y) : Real.log x ≤ Real.log y + (x - y) / y := by
  have := Real.log_le_sub_one_of_pos (div_pos hx hy)
  rw [Real.log_div hx.ne' hy.ne'] at this
  have e : x / y - 1 = (x - y) / y := by field_simp
  linarith

/-- The square of the mode -/
noncomputable def t0 (c : ℝ) : ℝ := if c = 0 then 1 / 2 else (c ^ 2 - 2 + √((c ^ 2) ^ 2 + 4)) / (2 * c ^ 2)
theorem t0_spec {c : ℝ} (hc : 0 ≤ c) : t0 c ∈ Ioo (0:ℝ) 1 ∧ 1 - 2 * t0 c + c ^ 2 * t0 c * (1 - t0 c) = 0 := by
  by_cases h0 : c = 0
  · rw [t0, if_pos h0, h0]; norm_num
  · have hc := lt_of_le_of_ne hc (Ne.symm h0)
    have hq : 0 < c ^ 2 := by positivity
    rw [t0, if_neg h0]
    have hr : √((c ^ 2) ^ 2 + 4) ^ 2 = (c ^ 2) ^ 2 + 4 := Real.sq_sqrt (by positivity)
    have hr0 : 0 ≤ √((c ^ 2) ^ 2 + 4) := Real.sqrt_nonneg _
    generalize √((c ^ 2) ^ 2 + 4) = r at *
    generalize c ^ 2 = q at *
    have h1 : 2 - q < r := by
      by_contra hh
      nlinarith [not_lt.1 hh]
    have h2 : r < q + 2 := by
      by_contra hh
      nlinarith [not_lt.1 hh]
    refine ⟨⟨by apply div_pos <;> linarith, by rw [div_lt_one (by linarith)]; linarith⟩, ?_⟩
    field_simp
    nlinarith

theorem h_eq_exp {c : ℝ} (hc : 0 ≤ c) {z : ℝ} (hz : z ∈ Ioo (0:ℝ) 1) :
    h c z = (if c = 0 then 3 else c ^ 3 / (√(2 * Real.pi) * Psi c)) * Real.exp ((Real.log (z ^ 2) + Real.log (1 - z ^ 2) - c ^ 2 * (1 - z ^ 2)) / 2) := by
  have h1 : 0 < 1 - z ^ 2 := by nlinarith [hz.1, hz.2]
  have e1 : Real.exp (Real.log (z ^ 2) / 2) = z := by
    rw [Real.log_pow, show ((2:ℕ):ℝ) * Real.log z / 2 = Real.log z by push_cast; ring, Real.exp_log hz.1]
  have e2 : Real.exp (Real.log (1 - z ^ 2) / 2) = w z := by rw [w, ← Real.log_sqrt h1.le, Real.exp_log (Real.sqrt_pos.2 h1)]
  rw [show (Real.log (z ^ 2) + Real.log (1 - z ^ 2) - c ^ 2 * (1 - z ^ 2)) / 2 = Real.log (z ^ 2) / 2 + Real.log (1 - z ^ 2) / 2 +
    (-(c ^ 2 * (1 - z ^ 2)) / 2) by ring, Real.exp_add, Real.exp_add, e1, e2, h, k]
  split_ifs with h0
  · rw [h0]; simp; ring
  · have hP := (Psi_pos (lt_of_le_of_ne hc (Ne.symm h0))).ne'
    have := sqrt_two_pi_pos
    rw [phi, mul_pow, w_sq (Ioo_subset_Icc_self hz)]
    field_simp

theorem f_le {c : ℝ} (hc : 0 ≤ c) (z : ℝ) : f c z ≤ f c (√(t0 c)) := by
  obtain ⟨⟨h0, h1⟩, h2⟩ := t0_spec hc
  have hm : √(t0 c) ∈ Ioo (0:ℝ) 1 := ⟨Real.sqrt_pos.2 h0, by rw [Real.sqrt_lt' one_pos]; linarith⟩
  by_cases hz : z ∈ Ioo (0:ℝ) 1
  · rw [f_in hz, f_in hm, h_eq_exp hc hz, h_eq_exp hc hm, Real.sq_sqrt h0.le]
    refine mul_le_mul_of_nonneg_left (Real.exp_le_exp.2 (div_le_div_of_nonneg_right ?_ two_pos.le)) ?_
    · have hz2 : 0 < z ^ 2 := pow_pos hz.1 2
      have hz3 : 0 < 1 - z ^ 2 := by nlinarith [hz.1, hz.2]
      have a1 := tangent hz2 h0
      have a2 := tangent hz3 (sub_pos.2 h1)
      have e : (z ^ 2 - t0 c) / t0 c + (1 - z ^ 2 - (1 - t0 c)) / (1 - t0 c) + c ^ 2 * (z ^ 2 - t0 c) = 0 := by
        have := (sub_pos.2 h1).ne'
        have := h0.ne'
        field_simp
        linear_combination (z ^ 2 - t0 c) * h2
      linarith
    · split_ifs with hh
      · norm_num
      · have hc := lt_of_le_of_ne hc (Ne.symm hh)
        have := Psi_pos hc
        positivity
  · rw [f_out hz]; exact f_nonneg hc _

end Mpsci.argD
