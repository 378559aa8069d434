import Verif.Lemmas.GammaDist
import Verif.Lemmas.Dist.Gamma

/-! The distribution of `1 / X` for a gamma variate `X`. -/

namespace Mpsci.invgammaD

open Set Filter Topology MeasureTheory Num Spec

variable {a : ℝ}

noncomputable def F (a z : ℝ) : ℝ := if z ≤ 0 then 0 else 1 - gammaD.P a (1 / z)
noncomputable def f (a z : ℝ) : ℝ := if z ≤ 0 then 0 else gammaD.g a (1 / z) / z ^ 2
noncomputable def Q (a p : ℝ) : ℝ := 1 / gammaD.Q a (1 - p)

theorem F_nonpos {z : ℝ} (h : z ≤ 0) : F a z = 0 := if_pos h
theorem F_pos {z : ℝ} (h : 0 < z) : F a z = 1 - gammaD.P a (1 / z) := if_neg (not_le.2 h)
theorem f_nonpos {z : ℝ} (h : z ≤ 0) : f a z = 0 := if_pos h
theorem f_of_pos {z : ℝ} (h : 0 < z) : f a z = gammaD.g a (1 / z) / z ^ 2 := if_neg (not_le.2 h)

theorem f_pos (ha : 0 < a) {z : ℝ} (h : 0 < z) : 0 < f a z := by
  rw [f_of_pos h]; have := gammaD.g_pos ha (one_div_pos.2 h); positivity
theorem f_nonneg (ha : 0 < a) (z : ℝ) : 0 ≤ f a z := by
  rcases le_or_gt z 0 with h | h
  · exact (f_nonpos h).ge
  · exact (f_pos ha h).le

theorem log_f (ha : 0 < a) {z : ℝ} (h : 0 < z) :
    Real.log (f a z) = -Real.log (Real.Gamma a) - (a + 1) * Real.log z - 1 / z := by
  have hg := gammaD.Gpos ha
  have hz : 0 < 1 / z := one_div_pos.2 h
  rw [f_of_pos h, gammaD.g, Real.log_div (by positivity) (by positivity), Real.log_div (by positivity) hg.ne',
    Real.log_mul (by positivity) (by positivity), Real.log_exp, Real.log_rpow hz, Real.log_pow, one_div, Real.log_inv]
  push_cast; ring

theorem hasDerivAt_F (ha : 0 < a) {z : ℝ} (h : 0 < z) : HasDerivAt (F a) (f a z) z := by
  have h1 := gammaD.hasDerivAt_P ha (one_div_pos.2 h)
  have h2 : HasDerivAt (fun z : ℝ => 1 / z) (-(z ^ 2)⁻¹) z := by simpa only [one_div] using hasDerivAt_inv h.ne'
  have h3 := (HasDerivAt.comp z h1 h2).const_sub 1
  refine (h3.congr_deriv ?_).congr_of_eventuallyEq ?_
  · rw [f_of_pos h]; ring
  · filter_upwards [Ioi_mem_nhds h] with y hy
    exact F_pos hy

theorem isDist (ha : 0 < a) : IsDist (F a) (f a) := by
  refine isDist_Ioi (G := F a) (a := 0) (fun x h => F_nonpos h) (fun x _ => rfl) (F_nonpos le_rfl) ?_ (fun x h => f_nonpos h.le)
    (f_nonneg ha 0) (fun x h => hasDerivAt_F ha h) (fun x _ => f_nonneg ha x) ?_
  · rw [← continuousWithinAt_Ioi_iff_Ici]
    show Tendsto (F a) (𝓝[>] 0) (𝓝 (F a 0))
    have h := (gammaD.P_atTop ha).comp (tendsto_inv_nhdsGT_zero (𝕜 := ℝ))
    have h2 := h.const_sub 1
    rw [F_nonpos le_rfl]
    rw [sub_self] at h2
    refine h2.congr' ?_
    filter_upwards [self_mem_nhdsWithin] with z hz
    rw [F_pos hz, one_div]; rfl
  · have h1 : Tendsto (fun z : ℝ => 1 / z) atTop (𝓝[≥] 0) := by
      refine tendsto_nhdsWithin_iff.2 ⟨by simpa only [one_div] using tendsto_inv_atTop_zero, ?_⟩
      filter_upwards [eventually_gt_atTop 0] with z hz
      exact (one_div_pos.2 hz).le
    have h2 : Tendsto (gammaD.P a) (𝓝[≥] 0) (𝓝 (gammaD.P a 0)) := gammaD.P_cont0 ha
    have h3 := (h2.comp h1).const_sub 1
    rw [gammaD.P_zero, sub_zero] at h3
    refine h3.congr' ?_
    filter_upwards [eventually_gt_atTop 0] with z hz
    rw [F_pos hz]; rfl

theorem Q_pos (p : ℝ) : 0 < Q a p := one_div_pos.2 (gammaD.Q_pos _)
theorem F_Q (ha : 0 < a) (p : ℝ) (h0 : 0 < p) (h1 : p < 1) : F a (Q a p) = p := by
  rw [F_pos (Q_pos p), Q, one_div_one_div, gammaD.P_Q ha (by linarith) (by linarith)]; ring
theorem F_mem (ha : 0 < a) {z : ℝ} (h : 0 < z) : 0 < F a z ∧ F a z < 1 := by
  have hz := one_div_pos.2 h
  have h1 := gammaD.P_pos ha hz
  have h2 := gammaD.P_lt_one ha hz.le
  rw [F_pos h]; exact ⟨by linarith, by linarith⟩

/-! ### Moments -/

theorem Yn (ha : 0 < a) (n : ℕ) (hn : n < a) : Int01 (fun p => Q a p ^ n) (Real.Gamma (a - n) / Real.Gamma a) := by
  have h := (gammaD.E_rpow ha (s := -(n:ℝ)) (by linarith)).reflect
  refine h.congr fun p _ _ => ?_
  have hq := gammaD.Q_pos (k := a) (1 - p)
  show Q a p ^ n = gammaD.Q a (1 - p) ^ (-(n:ℝ))
  rw [Q, Real.rpow_neg hq.le, Real.rpow_natCast, one_div, inv_pow]

theorem Y1 (ha : 1 < a) : Int01 (Q a) (1 / (a - 1)) := by
  have h := Yn (a := a) (by linarith) 1 (by push_cast; linarith)
  have e : Real.Gamma (a - (1:ℕ)) / Real.Gamma a = 1 / (a - 1) := by
    have h1 := Real.Gamma_add_one (s := a - 1) (by linarith)
    have h2 := (gammaD.Gpos (show 0 < a - 1 by linarith)).ne'
    have h3 : a - 1 ≠ 0 := by linarith
    rw [sub_add_cancel] at h1
    rw [h1, Nat.cast_one]; field_simp
  rw [e] at h
  exact h.congr fun p _ _ => by simp

theorem Gamma_sub {b : ℝ} (hb : 1 < b) : Real.Gamma b = (b - 1) * Real.Gamma (b - 1) := by
  have h1 := Real.Gamma_add_one (s := b - 1) (by linarith)
  rwa [sub_add_cancel] at h1

theorem Y2 (ha : 2 < a) : Int01 (fun p => Q a p ^ 2) (1 / ((a - 1) * (a - 2))) := by
  have h := Yn (a := a) (by linarith) 2 (by push_cast; linarith)
  have e : Real.Gamma (a - (2:ℕ)) / Real.Gamma a = 1 / ((a - 1) * (a - 2)) := by
    have h2 := (gammaD.Gpos (show 0 < a - 2 by linarith)).ne'
    have h3 : a - 1 ≠ 0 := by linarith
    have h4 : a - 2 ≠ 0 := by linarith
    rw [Gamma_sub (b := a) (by linarith), Gamma_sub (b := a - 1) (by linarith), show a - 1 - 1 = a - 2 by ring]
    push_cast; field_simp
  rwa [e] at h

theorem Y3 (ha : 3 < a) : Int01 (fun p => Q a p ^ 3) (1 / ((a - 1) * (a - 2) * (a - 3))) := by
  have h := Yn (a := a) (by linarith) 3 (by push_cast; linarith)
  have e : Real.Gamma (a - (3:ℕ)) / Real.Gamma a = 1 / ((a - 1) * (a - 2) * (a - 3)) := by
    have h2 := (gammaD.Gpos (show 0 < a - 3 by linarith)).ne'
    have h3 : a - 1 ≠ 0 := by linarith
    have h4 : a - 2 ≠ 0 := by linarith
    have h5 : a - 3 ≠ 0 := by linarith
    rw [Gamma_sub (b := a) (by linarith), Gamma_sub (b := a - 1) (by linarith), Gamma_sub (b := a - 1 - 1) (by linarith),
      show a - 1 - 1 - 1 = a - 3 by ring, show a - 1 - 1 = a - 2 by ring]
    push_cast; field_simp
  rwa [e] at h

theorem Y4 (ha : 4 < a) : Int01 (fun p => Q a p ^ 4) (1 / ((a - 1) * (a - 2) * (a - 3) * (a - 4))) := by
  have h := Yn (a := a) (by linarith) 4 (by push_cast; linarith)
  have e : Real.Gamma (a - (4:ℕ)) / Real.Gamma a = 1 / ((a - 1) * (a - 2) * (a - 3) * (a - 4)) := by
    have h2 := (gammaD.Gpos (show 0 < a - 4 by linarith)).ne'
    have h3 : a - 1 ≠ 0 := by linarith
    have h4 : a - 2 ≠ 0 := by linarith
    have h5 : a - 3 ≠ 0 := by linarith
    have h6 : a - 4 ≠ 0 := by linarith
    rw [Gamma_sub (b := a) (by linarith), Gamma_sub (b := a - 1) (by linarith), Gamma_sub (b := a - 1 - 1) (by linarith),
      Gamma_sub (b := a - 1 - 1 - 1) (by linarith), show a - 1 - 1 - 1 - 1 = a - 4 by ring, show a - 1 - 1 - 1 = a - 3 by ring,
      show a - 1 - 1 = a - 2 by ring]
    push_cast; field_simp
  rwa [e] at h

/-- The moments of order `≥ a` do not exist. -/
theorem not_int (ha : 0 < a) (n : ℕ) (hn : a ≤ n) : ¬ IntegrableOn (fun p => Q a p ^ n) (Ioo 0 1) := by
  intro h
  have h1 : IntegrableOn (fun p => (fun x : ℝ => x ^ (-(n:ℝ))) (gammaD.Q a p)) (Ioo 0 1) := by
    refine integrableOn_reflect (h.congr_fun (fun p _ => ?_) measurableSet_Ioo)
    have hq := gammaD.Q_pos (k := a) (1 - p)
    simp only [Q]
    rw [Real.rpow_neg hq.le, Real.rpow_natCast, one_div, inv_pow]
  have h1' := (gammaD.E_iff ha (h := fun x : ℝ => x ^ (-(n:ℝ))) (by fun_prop)).1 h1
  have h2 := (h1'.mono_set (Ioo_subset_Ioi_self : Ioo (0:ℝ) 1 ⊆ Ioi 0)).const_mul (Real.exp 1)
  refine not_integrableOn_rpow (a := a - 1 - n) (by linarith) (Integrable.mono' h2
    (Measurable.aestronglyMeasurable (by fun_prop)) ?_)
  refine (ae_restrict_iff' measurableSet_Ioo).2 (Eventually.of_forall fun x hx => ?_)
  have hx0 := hx.1
  rw [Real.norm_of_nonneg (by positivity), ← mul_assoc (x ^ _), ← Real.rpow_add hx0, show -(n:ℝ) + (a - 1) = a - 1 - n by ring,
    mul_left_comm, ← Real.exp_add]
  refine le_mul_of_one_le_right (by positivity) (Real.one_le_exp (by linarith [hx.2]))

theorem hasEnt (ha : 0 < a) : HasEnt (f a) (a + Real.log (Real.Gamma a) - (1 + a) * psi a) := by
  refine HasEnt.of_int01 (isDist ha) (F_Q ha) ?_
  have h := ((((gammaD.E_log1 ha).reflect.mul (-(1 + a))).add (gammaD.E_id ha).reflect).add (Int01.const (Real.log (Real.Gamma a))))
  rw [show -(1 + a) * psi a + a + Real.log (Real.Gamma a) = a + Real.log (Real.Gamma a) - (1 + a) * psi a by ring] at h
  refine h.congr fun p _ _ => ?_
  rw [log_f ha (Q_pos p), Q, one_div_one_div, one_div, Real.log_inv]; ring

/-! ### The mode -/

theorem g_mono {k : ℝ} {u w : ℝ} (hu : 0 < u) (h : u ≤ w) (hw : w ≤ k - 1) : gammaD.g k u ≤ gammaD.g k w := by
  have hw0 : 0 < w := hu.trans_le h
  refine div_le_div_of_nonneg_right ?_ (gammaD.Gpos (by linarith : 0 < k)).le
  rw [Real.rpow_def_of_pos hu, Real.rpow_def_of_pos hw0, ← Real.exp_add, ← Real.exp_add, Real.exp_le_exp]
  have h1 := Real.log_le_sub_one_of_pos (div_pos hu hw0)
  rw [Real.log_div hu.ne' hw0.ne'] at h1
  have h2 : (k - 1) * (Real.log u - Real.log w) ≤ (k - 1) * (u / w - 1) := mul_le_mul_of_nonneg_left h1 (by linarith)
  have h3 : (k - 1) * (u / w - 1) ≤ w * (u / w - 1) :=
    mul_le_mul_of_nonpos_right hw (by rw [sub_nonpos, div_le_one hw0]; exact h)
  have h4 : w * (u / w - 1) = u - w := by field_simp
  linarith

theorem g_anti {k : ℝ} {u w : ℝ} (hk : 1 ≤ k) (hu : 0 < u) (h : u ≤ w) (hw : k - 1 ≤ u) : gammaD.g k w ≤ gammaD.g k u := by
  have hw0 : 0 < w := hu.trans_le h
  refine div_le_div_of_nonneg_right ?_ (gammaD.Gpos (by linarith : 0 < k)).le
  rw [Real.rpow_def_of_pos hu, Real.rpow_def_of_pos hw0, ← Real.exp_add, ← Real.exp_add, Real.exp_le_exp]
  have h1 := Real.log_le_sub_one_of_pos (div_pos hw0 hu)
  rw [Real.log_div hw0.ne' hu.ne'] at h1
  have h2 : (k - 1) * (Real.log w - Real.log u) ≤ (k - 1) * (w / u - 1) := mul_le_mul_of_nonneg_left h1 (by linarith)
  have h3 : (k - 1) * (w / u - 1) ≤ u * (w / u - 1) :=
    mul_le_mul_of_nonneg_right hw (by rw [sub_nonneg, one_le_div hu]; exact h)
  have h4 : u * (w / u - 1) = w - u := by field_simp
  linarith

theorem f_eq_g (ha : 0 < a) {z : ℝ} (h : 0 < z) : f a z = Real.Gamma (a + 2) / Real.Gamma a * gammaD.g (a + 2) (1 / z) := by
  have h1 := gammaD.Gpos ha
  have h2 := gammaD.Gpos (show 0 < a + 2 by linarith)
  have hz : 0 < 1 / z := one_div_pos.2 h
  have e2 : (1 / z) ^ (a + 2 - 1) = (1 / z) ^ (a - 1) * (1 / z) ^ 2 := by
    rw [← Real.rpow_natCast, ← Real.rpow_add hz]; congr 1; push_cast; ring
  rw [f_of_pos h, gammaD.g, gammaD.g, e2]
  field_simp

/-- the density increases up to the mode and decreases from there -/
theorem f_mono (ha : 0 < a) {x y : ℝ} (hx : 0 < x) (h : x ≤ y) (hy : y ≤ 1 / (a + 1)) : f a x ≤ f a y := by
  have hy0 := hx.trans_le h
  have := gammaD.Gpos (show 0 < a + 2 by linarith)
  rw [f_eq_g ha hx, f_eq_g ha hy0]
  refine mul_le_mul_of_nonneg_left (g_anti (by linarith) (one_div_pos.2 hy0) (one_div_le_one_div_of_le hx h) ?_)
    (div_pos this (gammaD.Gpos ha)).le
  have := one_div_le_one_div_of_le hy0 hy
  rw [one_div_one_div] at this; linarith
theorem f_anti (ha : 0 < a) {x y : ℝ} (h : x ≤ y) (hx : 1 / (a + 1) ≤ x) : f a y ≤ f a x := by
  have ha1 : 0 < 1 / (a + 1) := by positivity
  have hx0 : 0 < x := ha1.trans_le hx
  have hy0 := hx0.trans_le h
  have := gammaD.Gpos (show 0 < a + 2 by linarith)
  rw [f_eq_g ha hx0, f_eq_g ha hy0]
  refine mul_le_mul_of_nonneg_left (g_mono (one_div_pos.2 hy0) (one_div_le_one_div_of_le hx0 h) ?_)
    (div_pos this (gammaD.Gpos ha)).le
  have := one_div_le_one_div_of_le ha1 hx
  rw [one_div_one_div] at this; linarith

theorem f_le (ha : 0 < a) (z : ℝ) : f a z ≤ f a (1 / (a + 1)) := by
  rcases le_or_gt z 0 with h | h
  · rw [f_nonpos h]; exact f_nonneg ha _
  · rcases le_total z (1 / (a + 1)) with h1 | h1
    · exact f_mono ha h h1 le_rfl
    · exact f_anti ha h1 le_rfl

end Mpsci.invgammaD
