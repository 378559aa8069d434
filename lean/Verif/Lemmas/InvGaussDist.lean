import Verif.Lemmas.NormalDist
import Verif.Lemmas.Shape
import Mathlib.MeasureTheory.Integral.Gamma

/-! The standard inverse Gaussian distribution. -/

namespace Mpsci.igD

open Classical Set Filter Topology MeasureTheory

variable {m : ℝ}

noncomputable def a (m z : ℝ) : ℝ := (z / m - 1) / √z
noncomputable def b (m z : ℝ) : ℝ := -(z / m + 1) / √z
noncomputable def F (m z : ℝ) : ℝ := if z ≤ 0 then 0 else Phi (a m z) + Real.exp (2 / m) * Phi (b m z)
noncomputable def f (m z : ℝ) : ℝ := if z ≤ 0 then 0 else phi (a m z) / (z * √z)
/-- the mean over `(0, z]`, divided by `m` -/
noncomputable def K (m z : ℝ) : ℝ := if z ≤ 0 then 0 else Phi (a m z) - Real.exp (2 / m) * Phi (b m z)

theorem F_nonpos {z : ℝ} (h : z ≤ 0) : F m z = 0 := if_pos h
theorem F_pos {z : ℝ} (h : 0 < z) : F m z = Phi (a m z) + Real.exp (2 / m) * Phi (b m z) := if_neg (not_le.2 h)
theorem f_nonpos {z : ℝ} (h : z ≤ 0) : f m z = 0 := if_pos h
theorem f_of_pos {z : ℝ} (h : 0 < z) : f m z = phi (a m z) / (z * √z) := if_neg (not_le.2 h)
theorem K_nonpos {z : ℝ} (h : z ≤ 0) : K m z = 0 := if_pos h
theorem K_pos {z : ℝ} (h : 0 < z) : K m z = Phi (a m z) - Real.exp (2 / m) * Phi (b m z) := if_neg (not_le.2 h)

theorem f_pos {z : ℝ} (h : 0 < z) : 0 < f m z := by
  rw [f_of_pos h]; have := Real.sqrt_pos.2 h; exact div_pos (phi_pos _) (by positivity)
theorem f_nonneg (z : ℝ) : 0 ≤ f m z := by
  rcases le_or_gt z 0 with h | h
  · exact (f_nonpos h).ge
  · exact (f_pos h).le

theorem log_f {z : ℝ} (h : 0 < z) :
    Real.log (f m z) = -(1 / 2) * Real.log (2 * Real.pi) - 3 / 2 * Real.log z - ((z / m - 1) ^ 2) / (2 * z) := by
  have hs := Real.sqrt_pos.2 h
  have hq := Real.sq_sqrt h.le
  rw [f_of_pos h, Real.log_div (phi_pos _).ne' (by positivity), Real.log_mul h.ne' hs.ne', log_phi, Real.log_sqrt h.le, a, div_pow, hq]
  field_simp; ring

theorem phi_b (hm : 0 < m) {z : ℝ} (h : 0 < z) : Real.exp (2 / m) * phi (b m z) = phi (a m z) := by
  have hq := Real.sq_sqrt h.le
  rw [phi, phi, ← mul_div_assoc, ← Real.exp_add]
  congr 2
  rw [a, b, div_pow, div_pow, hq]
  field_simp; ring

theorem hasDerivAt_a (hm : 0 < m) {z : ℝ} (h : 0 < z) : HasDerivAt (a m) ((z / m + 1) / (2 * z * √z)) z := by
  have hs := Real.sqrt_pos.2 h
  have hq := Real.sq_sqrt h.le
  have h1 : HasDerivAt (fun z : ℝ => z / m - 1) (1 / m) z := ((hasDerivAt_id z).div_const m).sub_const 1
  refine (h1.div (Real.hasDerivAt_sqrt h.ne') hs.ne').congr_deriv ?_
  rw [hq]; field_simp; rw [hq]; ring
theorem hasDerivAt_b (hm : 0 < m) {z : ℝ} (h : 0 < z) : HasDerivAt (b m) ((1 - z / m) / (2 * z * √z)) z := by
  have hs := Real.sqrt_pos.2 h
  have hq := Real.sq_sqrt h.le
  have h1 : HasDerivAt (fun z : ℝ => -(z / m + 1)) (-(1 / m)) z := (((hasDerivAt_id z).div_const m).add_const 1).neg
  refine (h1.div (Real.hasDerivAt_sqrt h.ne') hs.ne').congr_deriv ?_
  rw [hq]; field_simp; rw [hq]; ring

theorem hasDerivAt_F (hm : 0 < m) {z : ℝ} (h : 0 < z) : HasDerivAt (F m) (f m z) z := by
  have hs := Real.sqrt_pos.2 h
  have h1 := (hasDerivAt_Phi (a m z)).comp z (hasDerivAt_a hm h)
  have h2 := ((hasDerivAt_Phi (b m z)).comp z (hasDerivAt_b hm h)).const_mul (Real.exp (2 / m))
  refine ((h1.add h2).congr_deriv ?_).congr_of_eventuallyEq ?_
  · rw [← mul_assoc, phi_b hm h, f_of_pos h]; field_simp; ring
  · filter_upwards [Ioi_mem_nhds h] with y hy
    exact F_pos hy

theorem hasDerivAt_K (hm : 0 < m) {z : ℝ} (h : 0 < z) : HasDerivAt (fun z => m * K m z) (z * f m z) z := by
  have hs := Real.sqrt_pos.2 h
  have h1 := (hasDerivAt_Phi (a m z)).comp z (hasDerivAt_a hm h)
  have h2 := ((hasDerivAt_Phi (b m z)).comp z (hasDerivAt_b hm h)).const_mul (Real.exp (2 / m))
  refine (((h1.sub h2).const_mul m).congr_deriv ?_).congr_of_eventuallyEq ?_
  · rw [← mul_assoc (Real.exp _), phi_b hm h, f_of_pos h]; field_simp; ring
  · filter_upwards [Ioi_mem_nhds h] with y hy
    show m * K m y = _
    rw [K_pos hy]; rfl

theorem sqrt_atTop : Tendsto (fun z : ℝ => √z) atTop atTop := Real.tendsto_sqrt_atTop
theorem a_atTop (hm : 0 < m) : Tendsto (a m) atTop atTop := by
  have h1 : Tendsto (fun z : ℝ => √z / m + -1) atTop atTop :=
    tendsto_atTop_add_const_right _ _ (sqrt_atTop.atTop_div_const hm)
  refine tendsto_atTop_mono' _ ?_ h1
  filter_upwards [eventually_ge_atTop 1] with z hz
  have h0 : 0 < z := by linarith
  have hs : 1 ≤ √z := Real.one_le_sqrt.2 hz
  have hq := Real.sq_sqrt h0.le
  have : a m z = √z / m - 1 / √z := by
    rw [a]; nth_rewrite 1 [← hq]; field_simp
  rw [this]
  have : 1 / √z ≤ 1 := by rw [div_le_one (by linarith)]; exact hs
  linarith
theorem b_atTop (hm : 0 < m) : Tendsto (b m) atTop atBot := by
  have h1 : Tendsto (fun z : ℝ => -(√z / m)) atTop atBot := tendsto_neg_atTop_atBot.comp (sqrt_atTop.atTop_div_const hm)
  refine tendsto_atBot_mono' _ ?_ h1
  filter_upwards [eventually_gt_atTop 0] with z hz
  have hs := Real.sqrt_pos.2 hz
  have hq := Real.sq_sqrt hz.le
  have : b m z = -(√z / m) - 1 / √z := by
    rw [b]; nth_rewrite 1 [← hq]; field_simp; ring
  rw [this]
  have : 0 < 1 / √z := by positivity
  linarith
theorem inv_sqrt_zero : Tendsto (fun z : ℝ => 1 / √z) (𝓝[>] 0) atTop := by
  have h : Tendsto (fun z : ℝ => √z) (𝓝[>] 0) (𝓝[>] 0) := by
    refine tendsto_nhdsWithin_iff.2 ⟨?_, ?_⟩
    · have := (Real.continuous_sqrt.tendsto 0)
      rw [Real.sqrt_zero] at this
      exact this.mono_left nhdsWithin_le_nhds
    · filter_upwards [self_mem_nhdsWithin] with z hz
      exact Real.sqrt_pos.2 hz
  simp only [one_div]
  exact (tendsto_inv_nhdsGT_zero (𝕜 := ℝ)).comp h
theorem a_zero (hm : 0 < m) : Tendsto (a m) (𝓝[>] 0) atBot := by
  have h1 : Tendsto (fun z : ℝ => -(1 / √z) + 1 / m) (𝓝[>] 0) atBot :=
    tendsto_atBot_add_const_right _ _ (tendsto_neg_atTop_atBot.comp inv_sqrt_zero)
  refine tendsto_atBot_mono' _ ?_ h1
  have h2 : ∀ᶠ z : ℝ in 𝓝[>] 0, z < 1 := nhdsWithin_le_nhds (gt_mem_nhds one_pos)
  filter_upwards [self_mem_nhdsWithin, h2] with z hz hz1
  have hz : 0 < z := hz
  have hs := Real.sqrt_pos.2 hz
  have hq := Real.sq_sqrt hz.le
  have : a m z = √z / m - 1 / √z := by
    rw [a]; nth_rewrite 1 [← hq]; field_simp
  rw [this]
  have : √z ≤ 1 := Real.sqrt_le_one.2 hz1.le
  have : √z / m ≤ 1 / m := div_le_div_of_nonneg_right this hm.le
  linarith
theorem b_zero (hm : 0 < m) : Tendsto (b m) (𝓝[>] 0) atBot := by
  have h1 : Tendsto (fun z : ℝ => -(1 / √z)) (𝓝[>] 0) atBot := tendsto_neg_atTop_atBot.comp inv_sqrt_zero
  refine tendsto_atBot_mono' _ ?_ h1
  filter_upwards [self_mem_nhdsWithin] with z hz
  have hz : 0 < z := hz
  have hs := Real.sqrt_pos.2 hz
  have : 0 < z / m := by positivity
  rw [b, ← neg_div]
  exact div_le_div_of_nonneg_right (by linarith) hs.le

theorem F_cont0 (hm : 0 < m) : ContinuousWithinAt (F m) (Ici 0) 0 := by
  rw [← continuousWithinAt_Ioi_iff_Ici]
  show Tendsto (F m) (𝓝[>] 0) (𝓝 (F m 0))
  have h := (Phi_atBot.comp (a_zero hm)).add ((Phi_atBot.comp (b_zero hm)).const_mul (Real.exp (2 / m)))
  rw [F_nonpos le_rfl]
  simp only [mul_zero, add_zero] at h
  refine h.congr' ?_
  filter_upwards [self_mem_nhdsWithin] with z hz
  rw [F_pos hz]; rfl
theorem F_atTop (hm : 0 < m) : Tendsto (F m) atTop (𝓝 1) := by
  have h := (Phi_atTop.comp (a_atTop hm)).add ((Phi_atBot.comp (b_atTop hm)).const_mul (Real.exp (2 / m)))
  simp only [mul_zero, add_zero] at h
  refine h.congr' ?_
  filter_upwards [eventually_gt_atTop 0] with z hz
  rw [F_pos hz]; rfl
theorem K_cont0 (hm : 0 < m) : ContinuousWithinAt (K m) (Ici 0) 0 := by
  rw [← continuousWithinAt_Ioi_iff_Ici]
  show Tendsto (K m) (𝓝[>] 0) (𝓝 (K m 0))
  have h := (Phi_atBot.comp (a_zero hm)).sub ((Phi_atBot.comp (b_zero hm)).const_mul (Real.exp (2 / m)))
  rw [K_nonpos le_rfl]
  simp only [mul_zero, sub_zero] at h
  refine h.congr' ?_
  filter_upwards [self_mem_nhdsWithin] with z hz
  rw [K_pos hz]; rfl
theorem K_atTop (hm : 0 < m) : Tendsto (K m) atTop (𝓝 1) := by
  have h := (Phi_atTop.comp (a_atTop hm)).sub ((Phi_atBot.comp (b_atTop hm)).const_mul (Real.exp (2 / m)))
  simp only [mul_zero, sub_zero] at h
  refine h.congr' ?_
  filter_upwards [eventually_gt_atTop 0] with z hz
  rw [K_pos hz]; rfl

theorem isDist (hm : 0 < m) : IsDist (F m) (f m) :=
  isDist_Ioi (G := F m) (a := 0) (fun x h => F_nonpos h) (fun x _ => rfl) (F_nonpos le_rfl) (F_cont0 hm) (fun x h => f_nonpos h.le)
    (f_nonneg 0) (fun x h => hasDerivAt_F hm h) (fun x _ => f_nonneg x) (F_atTop hm)

theorem F_strictMonoOn (hm : 0 < m) : StrictMonoOn (F m) (Ici 0) := by
  refine strictMonoOn_of_deriv_pos (convex_Ici 0) (isDist hm).cont.continuousOn fun z hz => ?_
  rw [interior_Ici] at hz
  rw [(hasDerivAt_F hm hz).deriv]; exact f_pos hz
theorem F_mem (hm : 0 < m) {z : ℝ} (h : 0 < z) : 0 < F m z ∧ F m z < 1 := by
  have h1 := F_strictMonoOn hm (self_mem_Ici : (0:ℝ) ∈ Ici 0) (show z ∈ Ici 0 from h.le) h
  have h2 := F_strictMonoOn hm (show z ∈ Ici 0 from h.le) (show z + 1 ∈ Ici 0 by show 0 ≤ z + 1; linarith) (by linarith : z < z + 1)
  rw [F_nonpos le_rfl] at h1
  exact ⟨h1, h2.trans_le ((isDist hm).le_one _)⟩

theorem exists_Q (hm : 0 < m) {p : ℝ} (h0 : 0 < p) (h1 : p < 1) : ∃ x, 0 < x ∧ F m x = p := by
  obtain ⟨N, hN⟩ := ((F_atTop hm).eventually (lt_mem_nhds h1)).exists
  have hN0 : 0 < N := by
    by_contra h; rw [F_nonpos (not_lt.1 h)] at hN; linarith
  obtain ⟨x, hx, e⟩ := intermediate_value_Icc hN0.le (isDist hm).cont.continuousOn
    (show p ∈ Icc (F m 0) (F m N) from ⟨by rw [F_nonpos le_rfl]; exact h0.le, hN.le⟩)
  refine ⟨x, hx.1.lt_of_ne fun h => ?_, e⟩
  rw [← h, F_nonpos le_rfl] at e; linarith

/-- quantiles -/
noncomputable def Q (m p : ℝ) : ℝ := if h : ∃ x, 0 < x ∧ F m x = p then h.choose else 1
theorem Q_pos (p : ℝ) : 0 < Q m p := by
  unfold Q; split_ifs with h
  · exact h.choose_spec.1
  · exact one_pos
theorem F_Q (hm : 0 < m) (p : ℝ) (h0 : 0 < p) (h1 : p < 1) : F m (Q m p) = p := by
  have h := exists_Q hm h0 h1
  unfold Q; rw [dif_pos h]; exact h.choose_spec.2

/-! ### The mode -/

noncomputable def mo (m : ℝ) : ℝ := m * (√(1 + (3 * m / 2) ^ 2) - 3 * m / 2)
theorem mo_pos (hm : 0 < m) : 0 < mo m := by
  refine mul_pos hm (sub_pos.2 (Real.lt_sqrt_of_sq_lt (by linarith)))
theorem mo_root (hm : 0 < m) : (mo m) ^ 2 / m ^ 2 + 3 * mo m - 1 = 0 := by
  have hq := Real.sq_sqrt (show 0 ≤ 1 + (3 * m / 2) ^ 2 by positivity)
  rw [mo]; field_simp
  ring_nf at hq ⊢; rw [hq]; ring

theorem hasDerivAt_f (hm : 0 < m) {z : ℝ} (h : 0 < z) :
    HasDerivAt (f m) (f m z * ((1 - 3 * z - z ^ 2 / m ^ 2) / (2 * z ^ 2))) z := by
  have hs := Real.sqrt_pos.2 h
  have hq := Real.sq_sqrt h.le
  have h1 := (hasDerivAt_phi (a m z)).comp z (hasDerivAt_a hm h)
  have h2 := (hasDerivAt_id z).mul (Real.hasDerivAt_sqrt h.ne')
  have h3 := h1.div h2 (by show z * √z ≠ 0; positivity)
  refine (h3.congr_deriv ?_).congr_of_eventuallyEq ?_
  · rw [f_of_pos h]
    simp only [id, Pi.mul_apply, Function.comp_apply]
    generalize phi (a m z) = P
    rw [a, mul_pow, hq]
    field_simp
    rw [hq]
    ring
  · filter_upwards [Ioi_mem_nhds h] with y hy
    exact f_of_pos hy

theorem f_mono (hm : 0 < m) {x y : ℝ} (hx : 0 < x) (hxy : x ≤ y) (hy : y ≤ mo m) : f m x ≤ f m y := by
  have hd : MonotoneOn (f m) (Icc x y) := by
    refine monotoneOn_of_deriv_nonneg (convex_Icc x y)
      (fun z hz => (hasDerivAt_f hm (hx.trans_le hz.1)).continuousAt.continuousWithinAt)
      (fun z hz => ?_) fun z hz => ?_
    · rw [interior_Icc] at hz
      exact (hasDerivAt_f hm (hx.trans hz.1)).differentiableAt.differentiableWithinAt
    · rw [interior_Icc] at hz
      have hz0 := hx.trans hz.1
      rw [(hasDerivAt_f hm hz0).deriv]
      refine mul_nonneg (f_nonneg _) (div_nonneg ?_ (by positivity))
      have h1 := mo_root hm
      have h2 : z ^ 2 / m ^ 2 ≤ (mo m) ^ 2 / m ^ 2 := by
        have : z ≤ mo m := hz.2.le.trans hy
        gcongr
      linarith [hz.2]
  exact hd ⟨le_rfl, hxy⟩ ⟨hxy, le_rfl⟩ hxy
theorem f_anti (hm : 0 < m) {x y : ℝ} (hxy : x ≤ y) (hx : mo m ≤ x) : f m y ≤ f m x := by
  have h0 := (mo_pos hm).trans_le hx
  have hd : AntitoneOn (f m) (Icc x y) := by
    refine antitoneOn_of_deriv_nonpos (convex_Icc x y)
      (fun z hz => (hasDerivAt_f hm (h0.trans_le hz.1)).continuousAt.continuousWithinAt)
      (fun z hz => ?_) fun z hz => ?_
    · rw [interior_Icc] at hz
      exact (hasDerivAt_f hm (h0.trans hz.1)).differentiableAt.differentiableWithinAt
    · rw [interior_Icc] at hz
      have hz0 := h0.trans hz.1
      rw [(hasDerivAt_f hm hz0).deriv]
      refine mul_nonpos_of_nonneg_of_nonpos (f_nonneg _) (div_nonpos_of_nonpos_of_nonneg ?_ (by positivity))
      have h1 := mo_root hm
      have h2 : (mo m) ^ 2 / m ^ 2 ≤ z ^ 2 / m ^ 2 := by
        have : mo m ≤ z := hx.trans hz.1.le
        have := mo_pos hm
        gcongr
      linarith [hz.1]
  exact hd ⟨le_rfl, hxy⟩ ⟨hxy, le_rfl⟩ hxy
theorem f_le (hm : 0 < m) (z : ℝ) : f m z ≤ f m (mo m) := by
  rcases le_or_gt z 0 with h | h
  · rw [f_nonpos h]; exact f_nonneg _
  rcases le_total z (mo m) with h1 | h1
  · exact f_mono hm h h1 le_rfl
  · exact f_anti hm h1 le_rfl

/-! ### Moments -/

theorem mom1 (hm : 0 < m) : Integrable (fun z => z * f m z) ∧ ∫ z, z * f m z = m := by
  have h := integral_of_antideriv (g := fun z => z * f m z) (H := fun z => m * K m z) (L := m * 1) (fun x hx => by simp [f_nonpos hx.le])
    ((K_cont0 hm).const_smul m) (fun x hx => hasDerivAt_K hm hx) (fun x hx => mul_nonneg hx.le (f_nonneg x)) ((K_atTop hm).const_mul m)
  rw [K_nonpos le_rfl] at h
  simpa using h

theorem phi_a_le (hm : 0 < m) {z : ℝ} (h : 0 < z) : phi (a m z) ≤ Real.exp (1 / m) * Real.exp (-(1 / (2 * m ^ 2)) * z ^ (1:ℝ)) := by
  have hq := Real.sq_sqrt h.le
  have h1 : (1:ℝ) ≤ √(2 * Real.pi) := Real.one_le_sqrt.2 (by linarith [Real.two_le_pi])
  rw [phi, ← Real.exp_add, Real.rpow_one]
  refine (div_le_self (Real.exp_pos _).le h1).trans (Real.exp_le_exp.2 ?_)
  rw [a, div_pow, hq]
  have : -((z / m - 1) ^ 2 / z) / 2 = 1 / m + -(1 / (2 * m ^ 2)) * z - 1 / (2 * z) := by field_simp; ring
  rw [this]
  have : 0 < 1 / (2 * z) := by positivity
  linarith

theorem f_measurable : Measurable (f m) := by
  unfold f a
  refine Measurable.ite measurableSet_Iic measurable_const ?_
  have := phi_continuous.measurable
  fun_prop

theorem mom_int (hm : 0 < m) (k : ℕ) : Integrable (fun z => z ^ k * f m z) := by
  rcases k with _ | _ | k
  · simpa using (isDist hm).integrable
  · simpa using (mom1 hm).1
  refine integrable_of_Ioi (fun x hx => by simp [f_nonpos hx.le]) ?_
  have h1 := (integrableOn_rpow_mul_exp_neg_mul_rpow (s := k + 1 / 2) (p := 1) (b := 1 / (2 * m ^ 2))
    (by have : (0:ℝ) ≤ k := k.cast_nonneg
        linarith) one_pos (by positivity)).const_mul (Real.exp (1 / m))
  refine Integrable.mono' h1 ((measurable_id.pow_const _).mul f_measurable).aestronglyMeasurable ?_
  refine (ae_restrict_iff' measurableSet_Ioi).2 (Eventually.of_forall fun z hz => ?_)
  have hz : 0 < z := hz
  have hs := Real.sqrt_pos.2 hz
  have hq := Real.sq_sqrt hz.le
  have e : z ^ (k + 1 + 1) * f m z = z ^ (k + 1 / 2 : ℝ) * phi (a m z) := by
    rw [f_of_pos hz, Real.rpow_add hz, Real.rpow_natCast, ← Real.sqrt_eq_rpow]
    field_simp
    rw [hq]
    ring
  rw [Real.norm_of_nonneg (mul_nonneg (by positivity) (f_nonneg _)), e]
  have := mul_le_mul_of_nonneg_left (phi_a_le hm hz) (Real.rpow_nonneg hz.le (k + 1 / 2 : ℝ))
  linarith

theorem mom_rec (hm : 0 < m) (k : ℕ) : ∫ z, z ^ (k + 2) * f m z =
    m ^ 2 * ((2 * k + 1) * (∫ z, z ^ (k + 1) * f m z) + ∫ z, z ^ k * f m z) := by
  have ho : ∀ j : ℕ, ∀ x : ℝ, x < 0 → x ^ j * f m x = 0 := fun j x hx => by simp [f_nonpos hx.le]
  have hz : ∀ j : ℕ, ∫ z, z ^ j * f m z = ∫ z in Ioi (0:ℝ), z ^ j * f m z := fun j => integral_Ioi_of_zero (ho j)
  set g : ℝ → ℝ := fun z => z ^ k * (√z * phi (a m z)) with hg
  set g' : ℝ → ℝ := fun z => (k + 1 / 2) * (z ^ (k + 1) * f m z) + 1 / 2 * (z ^ k * f m z) - 1 / (2 * m ^ 2) * (z ^ (k + 2) * f m z) with hg'
  have hi : ∀ j : ℕ, IntegrableOn (fun z => z ^ j * f m z) (Ioi 0) := fun j => (mom_int hm j).integrableOn
  have hgi : IntegrableOn g' (Ioi 0) := (((hi (k + 1)).const_mul _).add ((hi k).const_mul _)).sub ((hi (k + 2)).const_mul _)
  have eg : ∀ z : ℝ, 0 < z → g z = z ^ (k + 2) * f m z := by
    intro z hz
    have hs := Real.sqrt_pos.2 hz
    have hq := Real.sq_sqrt hz.le
    simp only [hg]
    rw [f_of_pos hz]; field_simp; rw [hq]; ring
  have hd : ∀ z ∈ Ioi (0:ℝ), HasDerivAt g (g' z) z := by
    intro z hz
    have hz : 0 < z := hz
    have hs := Real.sqrt_pos.2 hz
    have hq := Real.sq_sqrt hz.le
    have h1 := (hasDerivAt_phi (a m z)).comp z (hasDerivAt_a hm hz)
    have h2 := (hasDerivAt_pow k z).mul ((Real.hasDerivAt_sqrt hz.ne').mul h1)
    refine h2.congr_deriv ?_
    simp only [hg', Function.comp_apply, Pi.mul_apply]
    rw [f_of_pos hz]
    generalize phi (a m z) = P
    rw [a]
    rcases k with _ | k
    · simp; field_simp; ring
    · simp only [Nat.add_sub_cancel]; push_cast; field_simp
      have hq4 : (√z) ^ 4 = z ^ 2 := by rw [show (4:ℕ) = 2 * 2 from rfl, pow_mul, hq]
      rw [hq]; ring
  have hc : ContinuousWithinAt g (Ici 0) 0 := by
    have h1 : Tendsto (fun z : ℝ => z ^ k * (√z * phi 0)) (𝓝[≥] 0) (𝓝 (0 ^ k * (√0 * phi 0))) := by
      refine Tendsto.mono_left (Continuous.tendsto ?_ 0) nhdsWithin_le_nhds
      fun_prop
    show Tendsto g (𝓝[≥] 0) (𝓝 (g 0))
    simp only [Real.sqrt_zero, zero_mul, mul_zero] at h1
    have h0 : g 0 = 0 := by simp [hg]
    rw [h0]
    refine squeeze_zero' ?_ ?_ h1
    · filter_upwards [self_mem_nhdsWithin] with z hz
      have hz : 0 ≤ z := hz
      exact mul_nonneg (by positivity) (mul_nonneg (Real.sqrt_nonneg _) (phi_pos _).le)
    · filter_upwards [self_mem_nhdsWithin] with z hz
      have hz : 0 ≤ z := hz
      have := phi_le (a m z)
      simp only [hg]
      gcongr
  have hti : Tendsto g atTop (𝓝 0) := by
    refine tendsto_zero_of_hasDerivAt_of_integrableOn_Ioi hd hgi ?_
    exact (hi (k + 2)).congr_fun (fun z hz => (eg z hz).symm) measurableSet_Ioi
  have h := integral_Ioi_of_hasDerivAt_of_tendsto hc hd hgi hti
  have h0 : g 0 = 0 := by simp [hg]
  have h12 : IntegrableOn (fun z => (k + 1 / 2 : ℝ) * (z ^ (k + 1) * f m z) + 1 / 2 * (z ^ k * f m z)) (Ioi 0) :=
    ((hi (k + 1)).const_mul _).add ((hi k).const_mul _)
  rw [h0, sub_zero, hg', integral_sub h12 ((hi (k + 2)).const_mul _),
    integral_add ((hi (k + 1)).const_mul _) ((hi k).const_mul _), integral_const_mul, integral_const_mul, integral_const_mul,
    ← hz, ← hz, ← hz] at h
  have hm2 : m ^ 2 ≠ 0 := by positivity
  field_simp at h
  linarith

/-- the coefficients of the Bessel polynomials -/
noncomputable def cf (N k : ℕ) : ℝ := (N + k).choose (2 * k) * ((2 * k).factorial / k.factorial)
/-- Bessel polynomials, in `m / 2` -/
noncomputable def B (m : ℝ) (N : ℕ) : ℝ := ∑ k ∈ Finset.range (N + 1), cf N k * (m / 2) ^ k
/-- the moments, as the code computes them -/
noncomputable def SM (m : ℝ) (n : ℕ) : ℝ := if n = 0 then 1 else m ^ n * B m (n - 1)

theorem cf_rec (N j : ℕ) : cf (N + 2) (j + 1) = (4 * N + 6) * cf (N + 1) j + cf N (j + 1) := by
  have e : ((2 * (j + 1)).factorial / (j + 1).factorial : ℝ) = 2 * (2 * j + 1) * ((2 * j).factorial / j.factorial) := by
    have h1 : (2 * (j + 1)).factorial = (2 * j + 2) * ((2 * j + 1) * (2 * j).factorial) := by
      rw [show 2 * (j + 1) = (2 * j + 1) + 1 by ring, Nat.factorial_succ, Nat.factorial_succ]
    rw [h1, Nat.factorial_succ]
    have := Nat.factorial_pos j
    push_cast; field_simp
  have hp : (N + 2 + (j + 1)).choose (2 * (j + 1)) =
      (N + 1 + j).choose (2 * j) + 2 * (N + 1 + j).choose (2 * j + 1) + (N + 1 + j).choose (2 * j + 2) := by
    rw [show N + 2 + (j + 1) = (N + 1 + j + 1) + 1 by ring, show 2 * (j + 1) = (2 * j + 1) + 1 by ring, Nat.choose_succ_succ,
      Nat.choose_succ_succ, Nat.choose_succ_succ (N + 1 + j) (2 * j + 1)]
    ring
  have hr : ((N + 1 + j).choose (2 * j + 1) : ℝ) * (2 * j + 1) = (N + 1 + j).choose (2 * j) * (N + 1 - j) := by
    have h := Nat.choose_succ_right_eq (N + 1 + j) (2 * j)
    rcases Nat.lt_or_ge (N + 1 + j) (2 * j) with h1 | h1
    · rw [Nat.choose_eq_zero_of_lt h1, Nat.choose_eq_zero_of_lt (by omega)]; simp
    · have h2 := congrArg (Nat.cast (R := ℝ)) h
      push_cast [Nat.cast_sub h1] at h2
      rw [h2]; ring
  rw [cf, cf, cf, e, hp, show N + (j + 1) = N + 1 + j by ring, show 2 * (j + 1) = 2 * j + 2 by ring]
  push_cast
  generalize ((2 * j).factorial / j.factorial : ℝ) = r
  linear_combination 4 * r * hr

theorem cf_big {N k : ℕ} (h : N < k) : cf N k = 0 := by
  rw [cf, Nat.choose_eq_zero_of_lt (by omega)]; simp
theorem cf_zero (N : ℕ) : cf N 0 = 1 := by simp [cf]

theorem B_rec (N : ℕ) : B m (N + 2) = (2 * N + 3) * m * B m (N + 1) + B m N := by
  have h1 : B m N = cf N 0 + ∑ j ∈ Finset.range (N + 2), cf N (j + 1) * (m / 2) ^ (j + 1) := by
    have h2 : B m N = ∑ k ∈ Finset.range (N + 2 + 1), cf N k * (m / 2) ^ k := by
      refine Finset.sum_subset (Finset.range_subset_range.2 (by omega)) fun k _ hk => ?_
      rw [Finset.mem_range] at hk
      rw [cf_big (by omega), zero_mul]
    rw [h2, Finset.sum_range_succ', pow_zero, mul_one, add_comm]
  rw [h1, B, Finset.sum_range_succ', B, Finset.mul_sum, pow_zero, mul_one, cf_zero, cf_zero, add_comm (1:ℝ), ← add_assoc,
    ← Finset.sum_add_distrib]
  congr 1
  refine Finset.sum_congr rfl fun j _ => ?_
  rw [cf_rec]; ring

theorem SM_rec (n : ℕ) : SM m (n + 2) = m ^ 2 * ((2 * n + 1) * SM m (n + 1) + SM m n) := by
  rcases n with _ | n
  · simp [SM, B, cf, Finset.sum_range_succ, Nat.factorial]; try ring_nf; try simp
  · have h := B_rec (m := m) n
    simp only [SM, Nat.add_eq_zero_iff, one_ne_zero, and_false, if_false, Nat.add_sub_cancel, show n + 1 + 2 - 1 = n + 2 by omega,
      show n + 1 + 2 ≠ 0 by omega, OfNat.ofNat_ne_zero]
    rw [h]; push_cast; ring

theorem mom (hm : 0 < m) : ∀ n : ℕ, ∫ z, z ^ n * f m z = SM m n ∧ ∫ z, z ^ (n + 1) * f m z = SM m (n + 1)
  | 0 => by
    constructor
    · simpa [SM] using (isDist hm).integral_one
    · simpa [SM, B, cf] using (mom1 hm).2
  | n + 1 => by
    obtain ⟨h1, h2⟩ := mom hm n
    refine ⟨h2, ?_⟩
    rw [mom_rec hm, h1, h2, SM_rec]

theorem Yn (hm : 0 < m) (n : ℕ) : Int01 (fun p => Q m p ^ n) (SM m n) := by
  obtain ⟨h1, h2⟩ := (isDist hm).expect (F_Q hm) (h := fun x => x ^ n) (by fun_prop)
  exact ⟨h1.2 (mom_int hm n), h2.trans (mom hm n).1⟩

end Mpsci.igD
