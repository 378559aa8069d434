import Verif.Lemmas.GammaDist
import Mathlib.Analysis.SpecialFunctions.Gamma.BohrMollerup
import Mathlib.Analysis.Convex.Deriv
import Mathlib.Analysis.Calculus.IteratedDeriv.Lemmas

/-! The digamma function: derivative, monotonicity, bounds. -/

namespace Mpsci

open Set Filter Topology MeasureTheory

theorem psi_eq_LG {k : ℝ} (hk : 0 < k) : psi k = LG 1 k / LG 0 k := by rw [LG_zero hk, gammaD.psi_eq hk]

theorem hasDerivAt_psi {k : ℝ} (hk : 0 < k) : HasDerivAt psi (LG 2 k / Real.Gamma k - (LG 1 k / Real.Gamma k) ^ 2) k := by
  have hg := gammaD.Gpos hk
  have h := ((LG_deriv 1 hk).div (LG_deriv 0 hk) (by rw [LG_zero hk]; exact hg.ne')).congr_of_eventuallyEq
    (f₁ := psi) (by filter_upwards [lt_mem_nhds hk] with t ht using psi_eq_LG ht)
  refine h.congr_deriv ?_
  simp only [LG_zero hk, zero_add, Nat.reduceAdd]
  field_simp

theorem psi_deriv_pos {k : ℝ} (hk : 0 < k) : 0 < LG 2 k / Real.Gamma k - (LG 1 k / Real.Gamma k) ^ 2 := by
  -- the variance of the logarithm of a gamma variate
  set c := LG 1 k / Real.Gamma k with hc
  have h1 := gammaD.E_log hk 1
  have h2 := gammaD.E_log hk 2
  have h3 : Int01 (fun p => (Real.log (gammaD.Q k p) - c) ^ 2) (LG 2 k / Real.Gamma k - c ^ 2) := by
    have := (h2.sub (h1.mul (2 * c))).add (Int01.const (c ^ 2))
    rw [← hc, show LG 2 k / Real.Gamma k - 2 * c * c + c ^ 2 = LG 2 k / Real.Gamma k - c ^ 2 by ring] at this
    exact this.congr fun p _ _ => by ring
  have h0 : 0 ≤ LG 2 k / Real.Gamma k - c ^ 2 := by
    rw [← h3.2]; exact setIntegral_nonneg measurableSet_Ioo fun p _ => sq_nonneg _
  refine h0.lt_of_ne fun e => ?_
  have h4 := h3.2
  rw [← e, setIntegral_eq_zero_iff_of_nonneg_ae (by filter_upwards with p using sq_nonneg _) h3.1] at h4
  have h5 : ∀ᵐ p ∂(volume.restrict (Ioo (0:ℝ) 1)), p = gammaD.P k (Real.exp c) := by
    filter_upwards [h4, ae_restrict_mem measurableSet_Ioo] with p hp hm
    have h6 : Real.log (gammaD.Q k p) = c := by
      have : Real.log (gammaD.Q k p) - c = 0 := by simpa using hp
      linarith
    rw [← h6, Real.exp_log (gammaD.Q_pos p), gammaD.P_Q hk hm.1 hm.2]
  rw [ae_restrict_iff' measurableSet_Ioo] at h5
  have h6 : volume (Ioo (0:ℝ) 1 \ {gammaD.P k (Real.exp c)}) = 0 := by
    refine measure_mono_null (fun p hp => ?_) h5
    simp only [mem_compl_iff, mem_setOf_eq, Classical.not_imp]
    exact ⟨hp.1, hp.2⟩
  rw [measure_diff_null (measure_singleton _)] at h6
  simp at h6

theorem psi_strictMonoOn : StrictMonoOn psi (Ioi 0) := by
  refine strictMonoOn_of_deriv_pos (convex_Ioi 0) (fun x hx => (hasDerivAt_psi hx).continuousAt.continuousWithinAt) fun x hx => ?_
  rw [interior_Ioi] at hx
  rw [(hasDerivAt_psi hx).deriv]; exact psi_deriv_pos hx

theorem psi_mono {x y : ℝ} (hx : 0 < x) (h : x ≤ y) : psi x ≤ psi y :=
  psi_strictMonoOn.monotoneOn hx (hx.trans_le h) h

theorem psi_continuousOn : ContinuousOn psi (Ioi 0) := fun _ hx => (hasDerivAt_psi hx).continuousAt.continuousWithinAt

theorem psi_le_log {x : ℝ} (hx : 0 < x) : psi x ≤ Real.log x := by
  have h := Real.convexOn_log_Gamma.le_slope_of_hasDerivAt (x := x) (y := x + 1) hx (by simp only [mem_Ioi]; linarith)
    (by linarith) (hasDerivAt_logGamma hx)
  rw [slope_def_field, Function.comp, Function.comp, Real.Gamma_add_one hx.ne', Real.log_mul hx.ne' (gammaD.Gpos hx).ne'] at h
  simpa using h

theorem log_le_psi {x : ℝ} (hx : 0 < x) : Real.log x ≤ psi (x + 1) := by
  have h := Real.convexOn_log_Gamma.slope_le_of_hasDerivAt (x := x) (y := x + 1) hx (by simp only [mem_Ioi]; linarith)
    (by linarith) (hasDerivAt_logGamma (by linarith : 0 < x + 1))
  rw [slope_def_field, Function.comp, Function.comp, Real.Gamma_add_one hx.ne', Real.log_mul hx.ne' (gammaD.Gpos hx).ne'] at h
  simpa using h

/-- `2 z ≤ log ((1 + z) / (1 - z))` -/
theorem two_mul_le_log {z : ℝ} (h0 : 0 ≤ z) (h1 : z < 1) : 2 * z ≤ Real.log (1 + z) - Real.log (1 - z) := by
  have hd : ∀ x ∈ Ioo (0:ℝ) z, HasDerivAt (fun z => Real.log (1 + z) - Real.log (1 - z) - 2 * z) (1 / (1 + x) + 1 / (1 - x) - 2) x := by
    intro x hx
    have a1 : (1 + x) ≠ 0 := by have := hx.1; positivity
    have a2 : (1 - x) ≠ 0 := by have := hx.2; intro h; linarith
    have := ((((hasDerivAt_id x).const_add 1).log a1).sub (((hasDerivAt_id x).const_sub 1).log a2)).sub ((hasDerivAt_id x).const_mul 2)
    refine this.congr_deriv ?_
    simp only [id]; field_simp; ring
  have hm : MonotoneOn (fun z => Real.log (1 + z) - Real.log (1 - z) - 2 * z) (Icc 0 z) := by
    refine monotoneOn_of_deriv_nonneg (convex_Icc 0 z) ?_ ?_ ?_
    · refine ((ContinuousOn.log (by fun_prop) ?_).sub (ContinuousOn.log (by fun_prop) ?_)).sub (by fun_prop)
      · intro x hx; have := hx.1; positivity
      · intro x hx h; linarith [hx.2]
    · rw [interior_Icc]; exact fun x hx => (hd x hx).differentiableAt.differentiableWithinAt
    · rw [interior_Icc]
      intro x hx
      rw [(hd x hx).deriv]
      have a1 : 0 < 1 + x := by linarith [hx.1]
      have a2 : 0 < 1 - x := by linarith [hx.2]
      rw [sub_nonneg, div_add_div _ _ a1.ne' a2.ne', le_div_iff₀ (by positivity)]
      nlinarith [sq_nonneg x]
  have := hm (show (0:ℝ) ∈ Icc 0 z from ⟨le_rfl, h0⟩) (show z ∈ Icc 0 z from ⟨h0, le_rfl⟩) h0
  simp at this
  linarith

/-- A function that does not increase from `x` to `x + 1` and tends to 0 is nonnegative. -/
theorem nonneg_of_step {d : ℝ → ℝ} {x : ℝ} (hs : ∀ n : ℕ, d (x + n + 1) ≤ d (x + n))
    (ht : Tendsto (fun n : ℕ => d (x + n)) atTop (𝓝 0)) : 0 ≤ d x := by
  have ha : Antitone fun n : ℕ => d (x + n) := antitone_nat_of_succ_le fun n => by
    have := hs n; simpa [add_assoc] using this
  have := ha.le_of_tendsto ht 0
  simpa using this

theorem tendsto_psi_sub_log {x : ℝ} (hx : 0 < x) (c : ℝ) (hc : -x < c) :
    Tendsto (fun n : ℕ => psi (x + n) - Real.log (x + n + c)) atTop (𝓝 0) := by
  have hinv : Tendsto (fun n : ℕ => 1 / (x + n - 1)) atTop (𝓝 0) :=
    (tendsto_const_nhds.div_atTop ((tendsto_atTop_add_const_right _ (-1) (tendsto_atTop_add_const_left _ x tendsto_natCast_atTop_atTop))))
  have hinv2 : Tendsto (fun n : ℕ => 1 / (x + n + c)) atTop (𝓝 0) :=
    (tendsto_const_nhds.div_atTop ((tendsto_atTop_add_const_right _ c (tendsto_atTop_add_const_left _ x tendsto_natCast_atTop_atTop))))
  -- |log u - log v| ≤ |u - v| / min u v
  have key : ∀ u v : ℝ, 0 < u → 0 < v → Real.log u - Real.log v ≤ (u - v) / v := fun u v hu hv => by
    have := Real.log_le_sub_one_of_pos (div_pos hu hv)
    rw [Real.log_div hu.ne' hv.ne'] at this
    rwa [sub_div, div_self hv.ne']
  refine tendsto_of_tendsto_of_tendsto_of_le_of_le' (g := fun n : ℕ => -(c + 1) * (1 / (x + n - 1)))
    (h := fun n : ℕ => (-c) * (1 / (x + n + c))) ?_ ?_ ?_ ?_
  · simpa using hinv.const_mul (-(c + 1))
  · simpa using hinv2.const_mul (-c)
  · filter_upwards [eventually_ge_atTop 2] with n hn
    have h2 : (2:ℝ) ≤ n := by exact_mod_cast hn
    have h1 : Real.log (x + n - 1) ≤ psi (x + n) := by
      have := log_le_psi (x := x + n - 1) (by linarith)
      rwa [sub_add_cancel] at this
    have h3 := key (x + n + c) (x + n - 1) (by linarith) (by linarith)
    rw [show x + n + c - (x + n - 1) = c + 1 by ring] at h3
    have e : -(c + 1) * (1 / (x + n - 1)) = -((c + 1) / (x + n - 1)) := by ring
    rw [e]; linarith
  · filter_upwards with n
    have h2 : (0:ℝ) ≤ n := n.cast_nonneg
    have h1 := psi_le_log (x := x + n) (by linarith)
    have h3 := key (x + n) (x + n + c) (by linarith) (by linarith)
    rw [show x + n - (x + n + c) = -c by ring] at h3
    have e : -c * (1 / (x + n + c)) = (-c) / (x + n + c) := by ring
    rw [e]; linarith

theorem log_sub_half_le_psi {x : ℝ} (hx : 1 / 2 < x) : Real.log (x - 1 / 2) ≤ psi x := by
  have h0 : 0 < x := by linarith
  have ht := tendsto_psi_sub_log h0 (-(1 / 2)) (by linarith)
  have := nonneg_of_step (d := fun t => psi t - Real.log (t - 1 / 2)) (x := x) (fun n => ?_) (by simpa [sub_eq_add_neg] using ht)
  · simpa using this
  · set y := x + n with hy
    have hy1 : 1 / 2 < y := by have : (0:ℝ) ≤ n := n.cast_nonneg; linarith
    have hy0 : 0 < y := by linarith
    have h := two_mul_le_log (z := 1 / (2 * y)) (by positivity) (by rw [div_lt_one (by positivity)]; linarith)
    have e1 : 1 + 1 / (2 * y) = (y + 1 / 2) / y := by field_simp
    have e2 : 1 - 1 / (2 * y) = (y - 1 / 2) / y := by field_simp
    rw [e1, e2, Real.log_div (by positivity) hy0.ne', Real.log_div (by linarith) hy0.ne'] at h
    simp only [psi_add_one hy0]
    rw [show y + 1 - 1 / 2 = y + 1 / 2 by ring]
    have e3 : 2 * (1 / (2 * y)) = 1 / y := by field_simp
    linarith

/-- the trapezoidal rule: `log (1 + 1/y) ≤ (1/y + 1/(y+1)) / 2` -/
theorem log_one_add_le_trap {y : ℝ} (hy : 0 < y) : Real.log (y + 1) - Real.log y ≤ 1 / (2 * y) + 1 / (2 * (y + 1)) := by
  have hd : ∀ x ∈ Ioi (0:ℝ), HasDerivAt (fun y => Real.log (y + 1) - Real.log y - (1 / 2) * y⁻¹ - (1 / 2) * (y + 1)⁻¹)
      (1 / (2 * x ^ 2 * (x + 1) ^ 2)) x := by
    intro x hx
    have hx : 0 < x := hx
    have a1 : x + 1 ≠ 0 := by positivity
    have := (((((hasDerivAt_id x).add_const 1).log a1).sub ((hasDerivAt_id x).log hx.ne')).sub
      ((hasDerivAt_inv hx.ne').const_mul (1 / 2))).sub ((((hasDerivAt_id x).add_const 1).inv a1).const_mul (1 / 2))
    refine this.congr_deriv ?_
    simp only [id]; field_simp; ring
  have hm : MonotoneOn (fun y => Real.log (y + 1) - Real.log y - (1 / 2) * y⁻¹ - (1 / 2) * (y + 1)⁻¹) (Ioi 0) := by
    refine monotoneOn_of_deriv_nonneg (convex_Ioi 0) (fun x hx => (hd x hx).continuousAt.continuousWithinAt) ?_ ?_
    · rw [interior_Ioi]; exact fun x hx => (hd x hx).differentiableAt.differentiableWithinAt
    · rw [interior_Ioi]; intro x hx
      rw [(hd x hx).deriv]; positivity
  have ht : Tendsto (fun y : ℝ => Real.log (y + 1) - Real.log y - (1 / 2) * y⁻¹ - (1 / 2) * (y + 1)⁻¹) atTop (𝓝 0) := by
    have h1 : Tendsto (fun y : ℝ => Real.log (y + 1) - Real.log y) atTop (𝓝 0) := by
      have h2 : Tendsto (fun y : ℝ => 1 + y⁻¹) atTop (𝓝 1) := by simpa using tendsto_inv_atTop_zero.const_add (1:ℝ)
      have h3 := (Real.continuousAt_log one_ne_zero).tendsto.comp h2
      rw [Real.log_one] at h3
      refine h3.congr' ?_
      filter_upwards [eventually_gt_atTop 0] with y hy
      simp only [Function.comp]
      rw [← Real.log_div (by positivity) hy.ne']; congr 1; field_simp
    have h4 : Tendsto (fun y : ℝ => (y + 1)⁻¹) atTop (𝓝 0) := tendsto_inv_atTop_zero.comp (tendsto_atTop_add_const_right _ 1 tendsto_id)
    have := (h1.sub (tendsto_inv_atTop_zero.const_mul (1 / 2))).sub (h4.const_mul (1 / 2))
    simpa using this
  have : Real.log (y + 1) - Real.log y - (1 / 2) * y⁻¹ - (1 / 2) * (y + 1)⁻¹ ≤ 0 := by
    refine ge_of_tendsto ht ?_
    filter_upwards [eventually_ge_atTop y] with z hz
    exact hm hy (hy.trans_le hz) hz
  have e : 1 / (2 * y) + 1 / (2 * (y + 1)) = (1 / 2) * y⁻¹ + (1 / 2) * (y + 1)⁻¹ := by field_simp
  linarith

theorem psi_le {x : ℝ} (hx : 0 < x) : psi x ≤ Real.log x - 1 / (2 * x) := by
  have ht := tendsto_psi_sub_log hx 0 (by linarith)
  have hinv : Tendsto (fun n : ℕ => 1 / (2 * (x + n))) atTop (𝓝 0) :=
    tendsto_const_nhds.div_atTop ((tendsto_atTop_add_const_left _ x tendsto_natCast_atTop_atTop).const_mul_atTop two_pos)
  have ht2 : Tendsto (fun n : ℕ => Real.log (x + n) - 1 / (2 * (x + n)) - psi (x + n)) atTop (𝓝 0) := by
    have := (ht.neg).sub hinv
    simp only [neg_zero, sub_zero, add_zero] at this
    refine this.congr fun n => by ring
  have := nonneg_of_step (d := fun t => Real.log t - 1 / (2 * t) - psi t) (x := x) (fun n => ?_) ht2
  · linarith
  · set y := x + n with hy
    have hy0 : 0 < y := by have : (0:ℝ) ≤ n := n.cast_nonneg; linarith
    have h := log_one_add_le_trap hy0
    simp only [psi_add_one hy0]
    have e : 1 / y = 1 / (2 * y) + 1 / (2 * y) := by field_simp; norm_num
    linarith

theorem tendsto_psi_atTop : Tendsto psi atTop atTop := by
  have h : Tendsto (fun x : ℝ => Real.log (x - 1 / 2)) atTop atTop :=
    Real.tendsto_log_atTop.comp (tendsto_atTop_add_const_right _ (-(1 / 2)) tendsto_id)
  refine tendsto_atTop_mono' _ ?_ h
  filter_upwards [eventually_gt_atTop (1 / 2)] with x hx using log_sub_half_le_psi hx

theorem psi_exists (y : ℝ) : ∃ x, 0 < x ∧ psi x = y := by
  obtain ⟨b, hb, hb1⟩ := ((tendsto_psi_atTop.eventually_ge_atTop y).and (eventually_ge_atTop 1)).exists
  -- near 0, `psi x = psi (x + 1) - 1/x ≤ psi 2 - 1/x`
  set a := min 1 (1 / (|psi 2| + |y| + 1)) with ha
  have ha0 : 0 < a := lt_min one_pos (by positivity)
  have ha1 : a ≤ 1 := min_le_left _ _
  have h1 : psi a ≤ y := by
    have e := psi_add_one ha0
    have h2 : psi (a + 1) ≤ psi 2 := psi_mono (by linarith) (by linarith)
    have h3 : |psi 2| + |y| + 1 ≤ 1 / a := by
      rw [le_div_iff₀ ha0]
      calc (|psi 2| + |y| + 1) * a ≤ (|psi 2| + |y| + 1) * (1 / (|psi 2| + |y| + 1)) :=
            mul_le_mul_of_nonneg_left (min_le_right _ _) (by positivity)
        _ = 1 := by field_simp
    have := le_abs_self (psi 2); have := neg_abs_le y; linarith
  obtain ⟨x, hx, e⟩ := intermediate_value_Icc (ha1.trans hb1) (psi_continuousOn.mono fun x hx => ha0.trans_le hx.1) ⟨h1, hb⟩
  exact ⟨x, ha0.trans_le hx.1, e⟩

theorem psi_inj {x y : ℝ} (hx : 0 < x) (hy : 0 < y) (h : psi x = psi y) : x = y := psi_strictMonoOn.injOn hx hy h

/-- the trigamma function -/
noncomputable def psi1 (k : ℝ) : ℝ := LG 2 k / Real.Gamma k - (LG 1 k / Real.Gamma k) ^ 2

theorem hasDerivAt_psi' {k : ℝ} (hk : 0 < k) : HasDerivAt psi (psi1 k) k := hasDerivAt_psi hk
theorem psi1_pos {k : ℝ} (hk : 0 < k) : 0 < psi1 k := psi_deriv_pos hk
theorem iteratedDeriv_psi {k : ℝ} (hk : 0 < k) : iteratedDeriv 1 psi k = psi1 k := by
  rw [iteratedDeriv_one, (hasDerivAt_psi' hk).deriv]

theorem psi1_add_one {k : ℝ} (hk : 0 < k) : psi1 (k + 1) = psi1 k - 1 / k ^ 2 := by
  have h1 : HasDerivAt (fun x => psi (x + 1)) (psi1 (k + 1)) k := (hasDerivAt_psi' (by linarith : 0 < k + 1)).comp_add_const k 1
  have h2 : HasDerivAt (fun x => psi x + x⁻¹) (psi1 k + -(k ^ 2)⁻¹) k := (hasDerivAt_psi' hk).add (hasDerivAt_inv hk.ne')
  have h3 : HasDerivAt (fun x => psi (x + 1)) (psi1 k + -(k ^ 2)⁻¹) k := h2.congr_of_eventuallyEq (by
    filter_upwards [lt_mem_nhds hk] with x hx
    rw [psi_add_one hx, one_div])
  rw [h1.unique h3, one_div, sub_eq_add_neg]

theorem tendsto_psi_diff {x : ℝ} (hx : 0 < x) {h : ℝ} (hh : 0 ≤ h) :
    Tendsto (fun n : ℕ => psi (x + n + h) - psi (x + n)) atTop (𝓝 0) := by
  have h1 := tendsto_psi_sub_log hx h (by linarith)
  have h2 := tendsto_psi_sub_log (x := x + h) (by linarith) 0 (by linarith)
  have := h2.sub h1
  rw [sub_zero] at this
  refine this.congr fun n => ?_
  rw [add_zero, show x + h + (n:ℝ) = x + n + h by ring]; ring

/-- `psi` is concave. -/
theorem psi_shift_anti {x δ h : ℝ} (hx : 0 < x) (hδ : 0 ≤ δ) (hh : 0 ≤ h) : psi (x + δ + h) - psi (x + δ) ≤ psi (x + h) - psi x := by
  have ht : Tendsto (fun n : ℕ => (psi (x + n + h) - psi (x + n)) - (psi (x + n + δ + h) - psi (x + n + δ))) atTop (𝓝 0) := by
    have := (tendsto_psi_diff hx hh).sub (tendsto_psi_diff (x := x + δ) (by linarith) hh)
    rw [sub_zero] at this
    refine this.congr fun n => ?_
    rw [show x + δ + (n:ℝ) = x + n + δ by ring]
  have := nonneg_of_step (d := fun t => (psi (t + h) - psi t) - (psi (t + δ + h) - psi (t + δ))) (x := x) (fun n => ?_) ht
  · linarith
  · set y := x + n with hy
    have hy0 : 0 < y := by have : (0:ℝ) ≤ n := n.cast_nonneg; linarith
    rw [show y + 1 + h = (y + h) + 1 by ring, show y + 1 + δ + h = (y + δ + h) + 1 by ring, show y + 1 + δ = (y + δ) + 1 by ring,
      psi_add_one hy0, psi_add_one (by linarith : 0 < y + h), psi_add_one (by linarith : 0 < y + δ + h), psi_add_one (by linarith : 0 < y + δ)]
    have key : 0 ≤ (1 / y - 1 / (y + h)) - (1 / (y + δ) - 1 / (y + δ + h)) := by
      have e : (1 / y - 1 / (y + h)) - (1 / (y + δ) - 1 / (y + δ + h)) = h * (1 / (y * (y + h)) - 1 / ((y + δ) * (y + δ + h))) := by
        have a1 : y + h ≠ 0 := by positivity
        have a2 : y + δ ≠ 0 := by positivity
        have a3 : y + δ + h ≠ 0 := by positivity
        field_simp; ring
      rw [e]
      refine mul_nonneg hh (sub_nonneg.2 (one_div_le_one_div_of_le (by positivity) ?_))
      nlinarith [mul_nonneg hδ hh, mul_nonneg hδ hy0.le, mul_nonneg hδ hδ]
    linarith

theorem psi1_anti {x y : ℝ} (hx : 0 < x) (hxy : x ≤ y) : psi1 y ≤ psi1 x := by
  have h1 := hasDerivAt_iff_tendsto_slope_zero.1 (hasDerivAt_psi' hx)
  have h2 := hasDerivAt_iff_tendsto_slope_zero.1 (hasDerivAt_psi' (hx.trans_le hxy))
  have hle : 𝓝[>] (0:ℝ) ≤ 𝓝[≠] 0 := nhdsWithin_mono _ fun t ht => ne_of_gt ht
  refine le_of_tendsto_of_tendsto (h2.mono_left hle) (h1.mono_left hle) ?_
  filter_upwards [self_mem_nhdsWithin] with t ht
  have ht : 0 < t := ht
  have := psi_shift_anti hx (sub_nonneg.2 hxy) ht.le
  rw [add_sub_cancel] at this
  simp only [smul_eq_mul]
  exact mul_le_mul_of_nonneg_left this (inv_nonneg.2 ht.le)

theorem psi1_le {x : ℝ} (hx : 1 < x) : psi1 x ≤ 1 / (x - 1) := by
  obtain ⟨c, hc, e⟩ := exists_hasDerivAt_eq_slope psi psi1 (sub_one_lt x)
    (psi_continuousOn.mono fun t ht => by have := ht.1; simp only [mem_Ioi]; linarith)
    (fun t ht => hasDerivAt_psi' (by have := ht.1; linarith))
  have h1 := psi_add_one (x := x - 1) (by linarith)
  rw [sub_add_cancel] at h1
  rw [h1, show x - (x - 1) = 1 by ring, div_one, add_sub_cancel_left] at e
  rw [← e]
  exact psi1_anti (by linarith [hc.1]) hc.2.le

theorem tendsto_psi1 {x : ℝ} (hx : 0 < x) : Tendsto (fun n : ℕ => psi1 (x + n)) atTop (𝓝 0) := by
  have hinv : Tendsto (fun n : ℕ => 1 / (x + n - 1)) atTop (𝓝 0) :=
    (tendsto_const_nhds.div_atTop ((tendsto_atTop_add_const_right _ (-1) (tendsto_atTop_add_const_left _ x tendsto_natCast_atTop_atTop))))
  refine tendsto_of_tendsto_of_tendsto_of_le_of_le' tendsto_const_nhds hinv ?_ ?_
  · filter_upwards with n using (psi1_pos (by positivity)).le
  · filter_upwards [eventually_ge_atTop 1] with n hn
    have : (1:ℝ) ≤ n := by exact_mod_cast hn
    exact psi1_le (by linarith)

theorem tendsto_inv_shift (x : ℝ) : Tendsto (fun n : ℕ => 1 / (x + n)) atTop (𝓝 0) :=
  tendsto_const_nhds.div_atTop (tendsto_atTop_add_const_left _ x tendsto_natCast_atTop_atTop)

theorem psi1_ge {x : ℝ} (hx : 0 < x) : 1 / x + 1 / (2 * x ^ 2) ≤ psi1 x := by
  have ht : Tendsto (fun n : ℕ => psi1 (x + n) - 1 / (x + n) - 1 / (2 * (x + n) ^ 2)) atTop (𝓝 0) := by
    have h2 := ((tendsto_inv_shift x).pow 2).const_mul (1 / 2)
    have := ((tendsto_psi1 hx).sub (tendsto_inv_shift x)).sub h2
    simp only [sub_zero, ne_eq, OfNat.ofNat_ne_zero, not_false_eq_true, zero_pow, mul_zero] at this
    refine this.congr fun n => ?_
    have : x + n ≠ 0 := by positivity
    field_simp
  have := nonneg_of_step (d := fun t => psi1 t - 1 / t - 1 / (2 * t ^ 2)) (x := x) (fun n => ?_) ht
  · linarith
  · set y := x + n with hy
    have hy0 : 0 < y := by have : (0:ℝ) ≤ n := n.cast_nonneg; linarith
    rw [psi1_add_one hy0]
    have e : (psi1 y - 1 / y - 1 / (2 * y ^ 2)) - (psi1 y - 1 / y ^ 2 - 1 / (y + 1) - 1 / (2 * (y + 1) ^ 2)) =
        (1 / y - 1 / (y + 1)) ^ 2 / 2 := by field_simp; ring
    have := sq_nonneg (1 / y - 1 / (y + 1))
    linarith

/-- `psi1 x - 1/x` does not increase. -/
theorem psi1_sub_inv_anti {x y : ℝ} (hx : 0 < x) (hxy : x ≤ y) : psi1 y - 1 / y ≤ psi1 x - 1 / x := by
  have ht : Tendsto (fun n : ℕ => (psi1 (x + n) - 1 / (x + n)) - (psi1 (x + n + (y - x)) - 1 / (x + n + (y - x)))) atTop (𝓝 0) := by
    have := ((tendsto_psi1 hx).sub (tendsto_inv_shift x)).sub ((tendsto_psi1 (hx.trans_le hxy)).sub (tendsto_inv_shift y))
    simp only [sub_zero] at this
    refine this.congr fun n => ?_
    rw [show x + (n:ℝ) + (y - x) = y + n by ring]
  have := nonneg_of_step (d := fun t => (psi1 t - 1 / t) - (psi1 (t + (y - x)) - 1 / (t + (y - x)))) (x := x) (fun n => ?_) ht
  · simp only [add_sub_cancel] at this; linarith
  · set u := x + n with hu
    have hu0 : 0 < u := by have : (0:ℝ) ≤ n := n.cast_nonneg; linarith
    set v := u + (y - x) with hv
    have hv0 : u ≤ v := by linarith
    have hv1 : 0 < v := by linarith
    rw [show u + 1 + (y - x) = v + 1 by rw [hv]; ring, psi1_add_one hu0, psi1_add_one hv1]
    have e : ∀ t : ℝ, 0 < t → 1 / t ^ 2 - 1 / t + 1 / (t + 1) = 1 / (t ^ 2 * (t + 1)) := fun t ht => by field_simp; ring
    have h1 := e u hu0
    have h2 := e v hv1
    have h3 : 1 / (v ^ 2 * (v + 1)) ≤ 1 / (u ^ 2 * (u + 1)) := one_div_le_one_div_of_le (by positivity) (by gcongr)
    linarith

end Mpsci
