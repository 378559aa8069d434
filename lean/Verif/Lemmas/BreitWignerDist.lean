import Verif.Lemmas.Dist
import Verif.Lemmas.Moments
import Verif.Lemmas.Helpers
import Mathlib.Analysis.SpecialFunctions.Complex.Arctan
import Mathlib.Analysis.SpecialFunctions.Pow.Complex
import Mathlib.Analysis.SpecialFunctions.Complex.LogDeriv
import Mathlib.Analysis.SpecialFunctions.Trigonometric.ArctanDeriv
import Mathlib.Analysis.SpecialFunctions.ImproperIntegrals

/-! The standard relativistic Breit-Wigner distribution. -/

namespace Mpsci.bwD

open Filter Topology Set MeasureTheory

noncomputable def alpha (r : ℝ) : ℂ := (-(r : ℂ) * (r + Complex.I)) ^ (1 / 2 : ℂ)

variable {r : ℝ}

/-- Real and imaginary part of the principal root -/
theorem alpha_spec (hr : 0 < r) : 0 < (alpha r).re ∧ (alpha r).im < 0 ∧
    (alpha r).re ^ 2 - (alpha r).im ^ 2 = -r ^ 2 ∧ 2 * (alpha r).re * (alpha r).im = -r := by
  set v : ℂ := -(r : ℂ) * (r + Complex.I) with hv
  have hre : v.re = -r ^ 2 := by simp [hv]; ring
  have him : v.im = -r := by simp [hv]
  have h0 : v ≠ 0 := fun h => by rw [h] at him; simp at him; linarith
  have hlt : Complex.arg v < 0 := Complex.arg_neg_iff.2 (by rw [him]; linarith)
  have hgt : -Real.pi < Complex.arg v := Complex.neg_pi_lt_arg v
  have e : alpha r = Complex.exp (Complex.log v / 2) := by
    rw [alpha, ← hv, Complex.cpow_def_of_ne_zero h0]; congr 1; ring
  have e2 : alpha r ^ 2 = v := by
    rw [e, ← Complex.exp_nat_mul, show ((2:ℕ):ℂ) * (Complex.log v / 2) = Complex.log v by push_cast; ring, Complex.exp_log h0]
  have hl : (Complex.log v / 2).im = Complex.arg v / 2 := by
    rw [Complex.div_im]; simp [Complex.log_im]; ring
  refine ⟨?_, ?_, ?_, ?_⟩
  · rw [e, Complex.exp_re, hl]
    exact mul_pos (Real.exp_pos _) (Real.cos_pos_of_mem_Ioo ⟨by linarith, by linarith [Real.pi_pos]⟩)
  · rw [e, Complex.exp_im, hl]
    exact mul_neg_of_pos_of_neg (Real.exp_pos _) (Real.sin_neg_of_neg_of_neg_pi_lt (by linarith) (by linarith))
  · have := congrArg Complex.re e2
    rw [hre, pow_two, Complex.mul_re] at this
    linarith
  · have := congrArg Complex.im e2
    rw [him, pow_two, Complex.mul_im] at this
    linarith

/-- `ρ √(ρ² + 1)`, the square of the modulus of `alpha` -/
noncomputable def b (r : ℝ) : ℝ := r * √(r ^ 2 + 1)
theorem b_pos (hr : 0 < r) : 0 < b r := mul_pos hr (Real.sqrt_pos.2 (by positivity))
theorem b_sq (r : ℝ) : b r ^ 2 = r ^ 2 * (r ^ 2 + 1) := by rw [b, mul_pow, Real.sq_sqrt (by positivity)]
theorem normSq_alpha (hr : 0 < r) : (alpha r).re ^ 2 + (alpha r).im ^ 2 = b r := by
  obtain ⟨-, -, h3, h4⟩ := alpha_spec hr
  have h5 := b_sq r
  have h6 := b_pos hr
  have e : ((alpha r).re ^ 2 + (alpha r).im ^ 2) ^ 2 = b r ^ 2 := by
    rw [h5]
    calc ((alpha r).re ^ 2 + (alpha r).im ^ 2) ^ 2 = ((alpha r).re ^ 2 - (alpha r).im ^ 2) ^ 2 + (2 * (alpha r).re * (alpha r).im) ^ 2 := by ring
      _ = r ^ 2 * (r ^ 2 + 1) := by rw [h3, h4]; ring
  exact (sq_eq_sq₀ (by positivity) h6.le).1 e

noncomputable def k (r : ℝ) : ℝ := 2 * √2 * r ^ 2 * √(r ^ 2 + 1) / √(r ^ 2 + r * √(r ^ 2 + 1)) / Real.pi
theorem k_pos (hr : 0 < r) : 0 < k r := by rw [k]; positivity
theorem k_eq (hr : 0 < r) : k r * (-(alpha r).im * Real.pi) = 2 * r * b r := by
  obtain ⟨h1, h2, h3, h4⟩ := alpha_spec hr
  have h5 := normSq_alpha hr
  have h2' : 0 < -(alpha r).im := by linarith
  have e : √(r ^ 2 + r * √(r ^ 2 + 1)) = √2 * (-(alpha r).im) := by
    rw [← b, show r ^ 2 + b r = 2 * (-(alpha r).im) ^ 2 by linarith, Real.sqrt_mul zero_le_two, Real.sqrt_sq h2'.le]
  have hs : 0 < √2 := Real.sqrt_pos.2 two_pos
  rw [k, e, b]
  have := h2'.ne'
  have := Real.pi_ne_zero
  have hi : (alpha r).im ≠ 0 := h2.ne
  field_simp

/-- The complex arctangent of `z / alpha` -/
noncomputable def B (r z : ℝ) : ℂ := Complex.arctan (z / alpha r)

theorem alpha_ne (hr : 0 < r) : alpha r ≠ 0 := fun h => by
  have := (alpha_spec hr).1
  rw [h] at this; simp at this
theorem sub_ne (hr : 0 < r) (z : ℝ) : alpha r - z * Complex.I ≠ 0 := fun h => by
  have := (alpha_spec hr).1
  have h2 := congrArg Complex.re h
  simp at h2
  linarith
theorem add_ne (hr : 0 < r) (z : ℝ) : alpha r + z * Complex.I ≠ 0 := fun h => by
  have := (alpha_spec hr).1
  have h2 := congrArg Complex.re h
  simp at h2
  linarith

noncomputable def wq (r z : ℝ) : ℂ := (alpha r + z * Complex.I) / (alpha r - z * Complex.I)

theorem B_eq (hr : 0 < r) (z : ℝ) : B r z = -Complex.I / 2 * Complex.log (wq r z) := by
  rw [B, Complex.arctan, wq]
  have h1 := alpha_ne hr
  have h2 := sub_ne hr z
  congr 2
  rw [show 1 + z / alpha r * Complex.I = (alpha r + z * Complex.I) / alpha r by field_simp,
    show 1 - z / alpha r * Complex.I = (alpha r - z * Complex.I) / alpha r by field_simp, div_div_div_cancel_right₀ h1]

theorem wq_im (hr : 0 < r) (z : ℝ) : (wq r z).im = 2 * (alpha r).re * z / Complex.normSq (alpha r - z * Complex.I) := by
  have h : Complex.normSq (alpha r - z * Complex.I) ≠ 0 := by rw [Ne, Complex.normSq_eq_zero]; exact sub_ne hr z
  rw [wq, Complex.div_im]
  simp
  field_simp
  ring

theorem wq_mem (hr : 0 < r) {z : ℝ} (hz : 0 ≤ z) : wq r z ∈ Complex.slitPlane := by
  rcases hz.eq_or_lt with rfl | hz
  · rw [wq]; simp [alpha_ne hr]
  · refine Complex.mem_slitPlane_iff.2 (Or.inr ?_)
    rw [wq_im hr]
    have h : 0 < Complex.normSq (alpha r - z * Complex.I) := Complex.normSq_pos.2 (sub_ne hr z)
    have := (alpha_spec hr).1
    positivity

theorem sum_ne (hr : 0 < r) (z : ℝ) : alpha r ^ 2 + (z : ℂ) ^ 2 ≠ 0 := by
  have : alpha r ^ 2 + (z : ℂ) ^ 2 = (alpha r + z * Complex.I) * (alpha r - z * Complex.I) := by
    ring_nf; rw [Complex.I_sq]; ring
  rw [this]
  exact mul_ne_zero (add_ne hr z) (sub_ne hr z)

theorem hasDerivAt_B (hr : 0 < r) {z : ℝ} (hz : 0 ≤ z) : HasDerivAt (B r) (alpha r / (alpha r ^ 2 + (z : ℂ) ^ 2)) z := by
  have h1 : HasDerivAt (fun z : ℝ => (z : ℂ) * Complex.I) Complex.I z := by
    simpa using (Complex.ofRealCLM.hasDerivAt (x := z)).mul_const Complex.I
  have h2 : HasDerivAt (wq r) _ z := (h1.const_add (alpha r)).div (h1.const_sub (alpha r)) (sub_ne hr z)
  have h3 := (h2.clog_real (wq_mem hr hz)).const_mul (-Complex.I / 2)
  have e : B r = fun z => -Complex.I / 2 * Complex.log (wq r z) := funext (B_eq hr)
  rw [e]
  refine h3.congr_deriv ?_
  have a1 := add_ne hr z
  have a2 := sub_ne hr z
  have a3 := sum_ne hr z
  rw [wq]
  have a4 : alpha r ^ 2 + (z : ℂ) ^ 2 = (alpha r + z * Complex.I) * (alpha r - z * Complex.I) := by
    ring_nf; rw [Complex.I_sq]; ring
  rw [a4]
  field_simp
  ring_nf
  simp only [Complex.I_sq, show Complex.I ^ 3 = -Complex.I by rw [pow_succ, Complex.I_sq]; ring]
  ring

theorem B_zero (r : ℝ) : B r 0 = 0 := by simp [B, Complex.arctan]

theorem wq_tendsto (hr : 0 < r) : Tendsto (wq r) atTop (𝓝 (-1)) := by
  have e : wq r = fun z : ℝ => -1 + 2 * alpha r / (alpha r - z * Complex.I) := by
    funext z
    rw [wq]
    have := sub_ne hr z
    field_simp
    ring
  rw [e]
  conv => rhs; rw [show (-1:ℂ) = -1 + 0 by ring]
  refine tendsto_const_nhds.add ?_
  rw [tendsto_zero_iff_norm_tendsto_zero]
  have h1 : Tendsto (fun z : ℝ => ‖2 * alpha r‖ / (z - (alpha r).im)) atTop (𝓝 0) :=
    Tendsto.div_atTop tendsto_const_nhds (tendsto_atTop_add_const_right _ _ tendsto_id)
  refine tendsto_of_tendsto_of_tendsto_of_le_of_le' tendsto_const_nhds h1 (Eventually.of_forall fun z => norm_nonneg _) ?_
  filter_upwards [eventually_ge_atTop 0] with z hz
  rw [norm_div]
  have h2 := (alpha_spec hr).2.1
  refine div_le_div_of_nonneg_left (norm_nonneg _) (by linarith) ?_
  have := Complex.abs_im_le_norm (alpha r - z * Complex.I)
  simp at this
  rw [abs_of_neg (by linarith)] at this
  linarith

theorem B_tendsto (hr : 0 < r) : Tendsto (B r) atTop (𝓝 ((Real.pi / 2 : ℝ) : ℂ)) := by
  have e : B r = fun z => -Complex.I / 2 * Complex.log (wq r z) := funext (B_eq hr)
  have h1 : Tendsto (wq r) atTop (𝓝[{z | 0 ≤ z.im}] (-1)) := by
    refine tendsto_nhdsWithin_iff.2 ⟨wq_tendsto hr, ?_⟩
    filter_upwards [eventually_ge_atTop 0] with z hz
    show 0 ≤ (wq r z).im
    rw [wq_im hr]
    have := (alpha_spec hr).1
    exact div_nonneg (by positivity) (Complex.normSq_nonneg _)
  have h2 := (Complex.tendsto_log_nhdsWithin_im_nonneg_of_re_neg_of_im_zero (z := -1) (by simp) (by simp)).comp h1
  have h3 := h2.const_mul (-Complex.I / 2)
  rw [e]
  have e2 : -Complex.I / 2 * (((Real.log ‖(-1:ℂ)‖ : ℝ) : ℂ) + Real.pi * Complex.I) = ((Real.pi / 2 : ℝ) : ℂ) := by
    rw [norm_neg, norm_one, Real.log_one]
    push_cast
    ring_nf
    rw [Complex.I_sq]; ring
  rw [e2] at h3
  exact h3

theorem hasDerivAt_im {g : ℝ → ℂ} {g' : ℂ} {z : ℝ} (h : HasDerivAt g g' z) : HasDerivAt (fun z => (g z).im) g'.im z :=
  (Complex.imCLM.hasFDerivAt.comp_hasDerivAt z h)
theorem tendsto_im {g : ℝ → ℂ} {L : ℂ} (h : Tendsto g atTop (𝓝 L)) : Tendsto (fun z => (g z).im) atTop (𝓝 L.im) :=
  (Complex.continuous_im.tendsto L).comp h

theorem im_inv (hr : 0 < r) (z : ℝ) : ((alpha r ^ 2 + (z : ℂ) ^ 2)⁻¹).im = r / ((z ^ 2 - r ^ 2) ^ 2 + r ^ 2) := by
  obtain ⟨-, -, h3, h4⟩ := alpha_spec hr
  have e : alpha r ^ 2 + (z : ℂ) ^ 2 = ⟨z ^ 2 - r ^ 2, -r⟩ := by
    apply Complex.ext
    · simp [pow_two]; nlinarith
    · simp [pow_two]; nlinarith
  rw [e, Complex.inv_im, Complex.normSq_mk]
  simp [pow_two]

/-- Distribution function on `[0, ∞)` -/
noncomputable def G (r z : ℝ) : ℝ := k r * (B r z / alpha r).im / r
noncomputable def h (r z : ℝ) : ℝ := k r / ((z ^ 2 - r ^ 2) ^ 2 + r ^ 2)
noncomputable def F (r z : ℝ) : ℝ := if z ≤ 0 then 0 else G r z
noncomputable def f (r z : ℝ) : ℝ := if z < 0 then 0 else h r z
noncomputable def S (r z : ℝ) : ℝ := -(k r * (alpha r * B r z).im / r)
noncomputable def M1 (r z : ℝ) : ℝ := k r / (2 * r) * Real.arctan ((z ^ 2 - r ^ 2) / r)

theorem den_pos (hr : 0 < r) (z : ℝ) : 0 < (z ^ 2 - r ^ 2) ^ 2 + r ^ 2 := by positivity
theorem h_pos (hr : 0 < r) (z : ℝ) : 0 < h r z := div_pos (k_pos hr) (den_pos hr z)
theorem G_zero (r : ℝ) : G r 0 = 0 := by simp [G, B_zero]
theorem hasDerivAt_G (hr : 0 < r) {z : ℝ} (hz : 0 ≤ z) : HasDerivAt (G r) (h r z) z := by
  refine (((hasDerivAt_im ((hasDerivAt_B hr hz).div_const (alpha r))).const_mul (k r)).div_const r).congr_deriv ?_
  have h1 := alpha_ne hr
  have h2 := sum_ne hr z
  rw [show alpha r / (alpha r ^ 2 + (z : ℂ) ^ 2) / alpha r = (alpha r ^ 2 + (z : ℂ) ^ 2)⁻¹ by field_simp, im_inv hr, h]
  have := hr.ne'
  have := (den_pos hr z).ne'
  field_simp
theorem hasDerivAt_S (hr : 0 < r) {z : ℝ} (hz : 0 ≤ z) : HasDerivAt (S r) (z ^ 2 * h r z) z := by
  refine (((hasDerivAt_im ((hasDerivAt_B hr hz).const_mul (alpha r))).const_mul (k r)).div_const r).neg.congr_deriv ?_
  have h1 := alpha_ne hr
  have h2 := sum_ne hr z
  have e : alpha r * (alpha r / (alpha r ^ 2 + (z : ℂ) ^ 2)) = 1 - ((z ^ 2 : ℝ) : ℂ) * (alpha r ^ 2 + (z : ℂ) ^ 2)⁻¹ := by
    push_cast; field_simp; ring
  rw [e, Complex.sub_im, Complex.one_im, Complex.im_ofReal_mul, im_inv hr, h]
  have := hr.ne'
  have := (den_pos hr z).ne'
  field_simp
  ring
theorem hasDerivAt_M1 (hr : 0 < r) (z : ℝ) : HasDerivAt (M1 r) (z * h r z) z := by
  have h1 : HasDerivAt (fun z : ℝ => (z ^ 2 - r ^ 2) / r) (2 * z / r) z := by
    refine (((hasDerivAt_pow 2 z).sub_const (r ^ 2)).div_const r).congr_deriv ?_
    norm_num
  refine (h1.arctan.const_mul (k r / (2 * r))).congr_deriv ?_
  rw [h]
  have := hr.ne'
  have := (den_pos hr z).ne'
  have h2 : 1 + ((z ^ 2 - r ^ 2) / r) ^ 2 = ((z ^ 2 - r ^ 2) ^ 2 + r ^ 2) / r ^ 2 := by field_simp; ring
  rw [h2]
  field_simp

theorem G_tendsto (hr : 0 < r) : Tendsto (G r) atTop (𝓝 1) := by
  have h1 := ((tendsto_im ((B_tendsto hr).div_const (alpha r))).const_mul (k r)).div_const r
  have e : k r * ((((Real.pi / 2 : ℝ) : ℂ) / alpha r).im) / r = 1 := by
    have h2 := k_eq hr
    have h3 := normSq_alpha hr
    have h4 := b_pos hr
    rw [div_eq_mul_inv (((Real.pi / 2 : ℝ) : ℂ)), Complex.im_ofReal_mul, Complex.inv_im, Complex.normSq_apply, ← pow_two, ← pow_two, h3]
    have := hr.ne'
    have := h4.ne'
    field_simp
    linarith
  rw [e] at h1
  exact h1
theorem S_tendsto (hr : 0 < r) : Tendsto (S r) atTop (𝓝 (b r)) := by
  have h1 := (((tendsto_im ((B_tendsto hr).const_mul (alpha r))).const_mul (k r)).div_const r).neg
  have e : -(k r * ((alpha r * ((Real.pi / 2 : ℝ) : ℂ)).im) / r) = b r := by
    have h2 := k_eq hr
    rw [mul_comm (alpha r), Complex.im_ofReal_mul]
    have := hr.ne'
    field_simp
    linarith
  rw [e] at h1
  exact h1
theorem M1_tendsto (hr : 0 < r) : Tendsto (M1 r) atTop (𝓝 (k r / (2 * r) * (Real.pi / 2))) := by
  refine Tendsto.const_mul _ ((tendsto_nhds_of_tendsto_nhdsWithin Real.tendsto_arctan_atTop).comp ?_)
  refine Tendsto.atTop_div_const hr ?_
  exact tendsto_atTop_add_const_right _ _ (tendsto_pow_atTop two_ne_zero)

theorem f_nonneg (hr : 0 < r) (z : ℝ) : 0 ≤ f r z := by
  rw [f]; split_ifs
  · exact le_rfl
  · exact (h_pos hr z).le
theorem f_eq {z : ℝ} (hz : 0 ≤ z) : f r z = h r z := if_neg hz.not_gt
theorem f_neg {z : ℝ} (hz : z < 0) : f r z = 0 := if_pos hz

theorem isDist (hr : 0 < r) : IsDist (F r) (f r) := by
  refine isDist_Ioi (a := 0) (G := G r) (fun x hx => if_pos hx) (fun x hx => if_neg hx.not_ge) (G_zero r)
    (hasDerivAt_G hr le_rfl).continuousAt.continuousWithinAt (fun x hx => f_neg hx) (f_nonneg hr 0) (fun x hx => ?_)
    (fun x _ => f_nonneg hr x) (G_tendsto hr)
  rw [f_eq hx.le]; exact hasDerivAt_G hr hx.le

theorem F_eq {z : ℝ} (hz : 0 ≤ z) : F r z = G r z := by
  rw [F]; split_ifs with h
  · rw [le_antisymm h hz, G_zero]
  · rfl
theorem F_nonpos {z : ℝ} (hz : z ≤ 0) : F r z = 0 := if_pos hz
theorem F_strictMonoOn (hr : 0 < r) : StrictMonoOn (F r) (Ici 0) := by
  have : StrictMonoOn (G r) (Ici 0) := by
    refine strictMonoOn_of_deriv_pos (convex_Ici 0) (fun x hx => (hasDerivAt_G hr hx).continuousAt.continuousWithinAt) fun x hx => ?_
    rw [interior_Ici] at hx
    rw [(hasDerivAt_G hr (le_of_lt hx)).deriv]
    exact h_pos hr x
  intro x hx y hy hxy
  rw [F_eq hx, F_eq hy]
  exact this hx hy hxy
theorem F_pos (hr : 0 < r) {z : ℝ} (hz : 0 < z) : 0 < F r z := by
  have := F_strictMonoOn hr self_mem_Ici (mem_Ici.2 hz.le) hz
  rwa [F_nonpos le_rfl] at this
theorem F_lt_one (hr : 0 < r) (z : ℝ) : F r z < 1 := by
  have h1 : max z 0 < max z 0 + 1 := by linarith
  have h2 := F_strictMonoOn hr (mem_Ici.2 (le_max_right z 0)) (mem_Ici.2 ((le_max_right z 0).trans h1.le)) h1
  exact ((isDist hr).mono (le_max_left z 0)).trans_lt (h2.trans_le ((isDist hr).le_one _))
theorem F_unique (hr : 0 < r) {z : ℝ} (hz : 0 < z) (y : ℝ) (e : F r y = F r z) : y = z := by
  have hy : 0 < y := by
    by_contra hn
    rw [F_nonpos (not_lt.1 hn)] at e
    exact (F_pos hr hz).ne e
  exact (F_strictMonoOn hr).injOn (mem_Ici.2 hy.le) (mem_Ici.2 hz.le) e
theorem F_surj (hr : 0 < r) {p : ℝ} (h0 : 0 < p) (h1 : p < 1) : ∃ z, 0 < z ∧ F r z = p := by
  obtain ⟨y, hy⟩ := (((isDist hr).lim1.eventually (lt_mem_nhds h1)).and (eventually_ge_atTop 0)).exists
  have := intermediate_value_Icc hy.2 (isDist hr).cont.continuousOn
  rw [F_nonpos le_rfl] at this
  obtain ⟨z, hz, e⟩ := this ⟨h0.le, hy.1.le⟩
  refine ⟨z, lt_of_le_of_ne hz.1 fun hn => ?_, e⟩
  rw [← hn, F_nonpos le_rfl] at e
  exact h0.ne e

/-! ### Moments -/

noncomputable def mu (r : ℝ) : ℝ := k r / (2 * r) * (Real.pi / 2 + Real.arctan r)

theorem hasMV (hr : 0 < r) : HasMV (f r) (mu r) (b r - mu r ^ 2) := by
  have h1 := integral_of_antideriv (g := fun z => z * f r z) (H := M1 r) (fun x hx => by rw [f_neg hx, mul_zero])
    (hasDerivAt_M1 hr 0).continuousAt.continuousWithinAt (fun x hx => by rw [f_eq hx.le]; exact hasDerivAt_M1 hr x)
    (fun x hx => mul_nonneg hx.le (f_nonneg hr x)) (M1_tendsto hr)
  have h2 := integral_of_antideriv (g := fun z => z ^ 2 * f r z) (H := S r) (fun x hx => by rw [f_neg hx, mul_zero])
    (hasDerivAt_S hr le_rfl).continuousAt.continuousWithinAt (fun x hx => by rw [f_eq hx.le]; exact hasDerivAt_S hr hx.le)
    (fun x hx => mul_nonneg (by positivity) (f_nonneg hr x)) (S_tendsto hr)
  refine ⟨(isDist hr).integrable, (isDist hr).integral_one, h1.1, ?_, h2.1, ?_⟩
  · rw [h1.2, M1, mu, show ((0:ℝ) ^ 2 - r ^ 2) / r = -r by have := hr.ne'; field_simp; ring, Real.arctan_neg]; ring
  · rw [h2.2, S, B_zero]; simp

theorem not_integrable (hr : 0 < r) {n : ℕ} (hn : 3 ≤ n) : ¬ Integrable fun z => z ^ n * f r z := by
  intro hi
  have h1 : IntegrableOn (fun z => z ^ n * f r z) (Ioi (r + 1)) := hi.integrableOn
  have h2 : IntegrableOn (fun z : ℝ => z⁻¹) (Ioi (r + 1)) := by
    refine (h1.const_mul (1 / (2 * k r) * 2 * (1 + r ^ 2))).mono' (measurable_inv.aestronglyMeasurable) ?_
    filter_upwards [ae_restrict_mem measurableSet_Ioi] with z hz
    have hz : r + 1 < z := hz
    have hz1 : 1 < z := by linarith
    rw [Real.norm_of_nonneg (by positivity), f_eq (by linarith), h, ← one_div, div_le_iff₀ (by linarith)]
    have hk := k_pos hr
    have hd := den_pos hr z
    have e : 1 / (2 * k r) * 2 * (1 + r ^ 2) * (z ^ n * (k r / ((z ^ 2 - r ^ 2) ^ 2 + r ^ 2))) * z =
      (1 + r ^ 2) * z ^ (n + 1) / ((z ^ 2 - r ^ 2) ^ 2 + r ^ 2) := by
      have := hk.ne'
      have := hd.ne'
      field_simp
      ring
    rw [e, le_div_iff₀ hd, one_mul]
    have h4 : z ^ 4 ≤ z ^ (n + 1) := pow_le_pow_right₀ hz1.le (by omega)
    have h5 : (z ^ 2 - r ^ 2) ^ 2 ≤ z ^ 4 := by nlinarith [mul_pos hr hr, sq_nonneg r, mul_pos (mul_pos hr hr) (show 0 < 2 * z ^ 2 - r ^ 2 by nlinarith)]
    have h6 : r ^ 2 ≤ r ^ 2 * z ^ 4 := le_mul_of_one_le_right (by positivity) (one_le_pow₀ hz1.le)
    calc (z ^ 2 - r ^ 2) ^ 2 + r ^ 2 ≤ (1 + r ^ 2) * z ^ 4 := by linarith
      _ ≤ (1 + r ^ 2) * z ^ (n + 1) := mul_le_mul_of_nonneg_left h4 (by positivity)
  exact not_integrableOn_Ioi_inv h2

end Mpsci.bwD
