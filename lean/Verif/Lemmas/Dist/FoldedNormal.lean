import Verif.Model.Dist.FoldedNormal
import Verif.Lemmas.Dist.Normal
import Verif.Lemmas.Inverts
import Verif.Props.Fun.Log
import Mathlib.Analysis.SpecialFunctions.Trigonometric.DerivHyp
import Mathlib.Algebra.Order.Floor.Semifield

namespace Mpsci.folded_normal

open Classical Num common Filter Topology Set Spec MeasureTheory

variable {m s : ℝ}

theorem validate_ok (hs : 0 < s) : validateSigma (fin s) = .ok (fin s) := by simp [validateSigma, not_le.2 hs]
theorem validate_bad (hs : ¬ 0 < s) : validateSigma (fin s) = .error .valueError := by
  simp [validateSigma, not_lt.1 hs]

/-- the normal density -/
noncomputable def n (m s x : ℝ) : ℝ := phi ((x - m) / s) / s
noncomputable def G (m s x : ℝ) : ℝ := Phi ((x - m) / s) - Phi ((-x - m) / s)
noncomputable def F (m s x : ℝ) : ℝ := if x < 0 then 0 else G m s x
noncomputable def f (m s x : ℝ) : ℝ := if x < 0 then 0 else n m s x + n m s (-x)

theorem n_pos (hs : 0 < s) (x : ℝ) : 0 < n m s x := div_pos (phi_pos _) hs
theorem n_neg (x : ℝ) : n m s (-x) = n (-m) s x := by
  rw [n, n, ← phi_even]; congr 2; ring
theorem f_pos (hs : 0 < s) {x : ℝ} (hx : 0 ≤ x) : 0 < f m s x := by
  rw [f, if_neg (not_lt.2 hx)]; exact add_pos (n_pos hs x) (n_pos hs (-x))
theorem f_zero {x : ℝ} (hx : x < 0) : f m s x = 0 := if_pos hx
theorem f_nonneg (hs : 0 < s) (x : ℝ) : 0 ≤ f m s x := by
  rcases lt_or_ge x 0 with hx | hx
  exacts [(f_zero hx).ge, (f_pos hs hx).le]

theorem cdf_eval (hs : 0 < s) (x : ℝ) : cdf (fin x) (fin m) (fin s) = .ok (fin (F m s x)) := by
  by_cases hx : x < 0 <;>
  simp only [cdf, validate_ok hs, ok_bind, zero_def, fin_lt, hx, if_true, if_false, neg_fin, mp.ncdf3_fin hs, fin_sub,
    pure_eq_ok, F, G]
theorem sf_eval (hs : 0 < s) (x : ℝ) : sf (fin x) (fin m) (fin s) = .ok (fin (1 - F m s x)) := by
  by_cases hx : x < 0
  · simp [sf, validate_ok hs, hx, F]
  · have e : (-x - -m) / s = -((x - m) / s) := by ring
    simp only [sf, validate_ok hs, ok_bind, zero_def, fin_lt, hx, if_false, neg_fin, mp.ncdf3_fin hs, fin_add,
      pure_eq_ok, F, G, e, Phi_neg]
    congr 2; ring
theorem pdf_eval (hs : 0 < s) (x : ℝ) : pdf (fin x) (fin m) (fin s) = .ok (fin (f m s x)) := by
  by_cases hx : x < 0 <;>
  simp only [pdf, validate_ok hs, ok_bind, zero_def, fin_lt, hx, if_true, if_false, neg_fin, mp.npdf_fin hs, fin_add,
    pure_eq_ok, f, n]
theorem logpdf_off (hs : 0 < s) {x : ℝ} (hx : x < 0) : logpdf (fin x) (fin m) (fin s) = .ok ninf := by
  simp [logpdf, validate_ok hs, hx]
theorem logpdf_on (hs : 0 < s) {x : ℝ} (hx : 0 ≤ x) :
    logpdf (fin x) (fin m) (fin s) = .ok (fin (Real.log (f m s x))) := by
  have h := fun_.logsumexp_eq (l := [Real.log (n m s x), Real.log (n m s (-x))]) (by simp)
  simp only [nums, List.map_cons, List.map_nil, List.sum_cons, List.sum_nil, add_zero, Real.exp_log (n_pos hs _)]
    at h
  have h1 := normal.logpdf_eval (loc := m) hs x
  have h2 := normal.logpdf_eval (loc := m) hs (-x)
  simp only [logpdf, validate_ok hs, ok_bind, zero_def, fin_lt, not_lt.2 hx, if_false, neg_fin, h1, h2]
  rw [f, if_neg (not_lt.2 hx)]
  exact h

theorem hasDerivAt_aff (hs : s ≠ 0) (x : ℝ) : HasDerivAt (fun x => (x - m) / s) (1 / s) x := by
  simpa using ((hasDerivAt_id x).sub_const m).div_const s
theorem hasDerivAt_N (hs : s ≠ 0) (x : ℝ) : HasDerivAt (fun x => Phi ((x - m) / s)) (n m s x) x := by
  refine ((hasDerivAt_Phi _).comp x (hasDerivAt_aff hs x)).congr_deriv ?_
  rw [n]; ring
theorem tendsto_aff (hs : 0 < s) : Tendsto (fun x => (x - m) / s) atTop atTop :=
  (tendsto_atTop_add_const_right _ (-m) tendsto_id).atTop_div_const hs

theorem isDist (hs : 0 < s) : IsDist (F m s) (f m s) := by
  have hd (x : ℝ) : HasDerivAt (G m s) (n m s x + n m s (-x)) x := by
    have h1 := (hasDerivAt_N (m := m) hs.ne' (-x)).comp x (hasDerivAt_neg x)
    refine ((hasDerivAt_N hs.ne' x).sub h1).congr_deriv ?_
    ring
  have hc : Continuous (G m s) := continuous_iff_continuousAt.2 fun x => (hd x).continuousAt
  refine isDist_Ioi (G := G m s) (a := 0) (fun x hx => ?_) (fun x hx => if_neg (not_lt.2 hx.le)) (by simp [G])
    hc.continuousWithinAt (fun x hx => f_zero hx) (f_nonneg hs 0) (fun x hx => ?_) (fun x _ => f_nonneg hs x) ?_
  · rcases hx.lt_or_eq with h | h
    · exact if_pos h
    · rw [h, F, if_neg (lt_irrefl _)]; simp [G]
  · rw [f, if_neg (not_lt.2 hx.le)]; exact hd x
  · have h1 : Tendsto (fun x => Phi ((x - m) / s)) atTop (𝓝 1) := Phi_atTop.comp (tendsto_aff hs)
    have h2 : Tendsto (fun x => Phi ((-x - m) / s)) atTop (𝓝 0) := by
      have : Tendsto (fun x => -((x - -m) / s)) atTop atBot := tendsto_neg_atTop_atBot.comp (tendsto_aff hs)
      refine (Phi_atBot.comp this).congr fun x => ?_
      simp only [Function.comp_def]; congr 1; ring
    have h3 := h1.sub h2
    rw [sub_zero] at h3
    exact h3

/-! ### Mean and variance -/

theorem phi_comp_tendsto (hs : 0 < s) (k : ℕ) : Tendsto (fun x => ((x - m) / s) ^ k * phi ((x - m) / s)) atTop (𝓝 0) :=
  (tendsto_pow_phi k).comp (tendsto_aff hs)

theorem hasDerivAt_phi_aff (hs : s ≠ 0) (x : ℝ) :
    HasDerivAt (fun x => phi ((x - m) / s)) (-((x - m) / s) * n m s x) x := by
  refine ((hasDerivAt_phi _).comp x (hasDerivAt_aff hs x)).congr_deriv ?_
  rw [n]; ring

/-- an antiderivative of `x n(x)` -/
theorem hasDerivAt_H1 (hs : s ≠ 0) (x : ℝ) :
    HasDerivAt (fun x => m * Phi ((x - m) / s) - s * phi ((x - m) / s)) (x * n m s x) x := by
  refine (((hasDerivAt_N hs x).const_mul m).sub ((hasDerivAt_phi_aff hs x).const_mul s)).congr_deriv ?_
  field_simp; ring
theorem tendsto_H1 (hs : 0 < s) : Tendsto (fun x => m * Phi ((x - m) / s) - s * phi ((x - m) / s)) atTop (𝓝 m) := by
  have h1 : Tendsto (fun x => Phi ((x - m) / s)) atTop (𝓝 1) := Phi_atTop.comp (tendsto_aff hs)
  have h2 := phi_comp_tendsto (m := m) hs 0
  simp only [pow_zero, one_mul] at h2
  simpa using (h1.const_mul m).sub (h2.const_mul s)

/-- an antiderivative of `x² n(x)` -/
theorem hasDerivAt_H2 (hs : s ≠ 0) (x : ℝ) :
    HasDerivAt (fun x => (m ^ 2 + s ^ 2) * Phi ((x - m) / s) - s * (x + m) * phi ((x - m) / s)) (x ^ 2 * n m s x) x := by
  have h := ((hasDerivAt_N (m := m) hs x).const_mul (m ^ 2 + s ^ 2)).sub
    ((((hasDerivAt_id x).add_const m).const_mul s).mul (hasDerivAt_phi_aff (m := m) hs x))
  refine h.congr_deriv ?_
  simp only [id, n]
  field_simp; ring
theorem tendsto_H2 (hs : 0 < s) : Tendsto (fun x => (m ^ 2 + s ^ 2) * Phi ((x - m) / s) -
    s * (x + m) * phi ((x - m) / s)) atTop (𝓝 (m ^ 2 + s ^ 2)) := by
  have h1 : Tendsto (fun x => Phi ((x - m) / s)) atTop (𝓝 1) := Phi_atTop.comp (tendsto_aff hs)
  have h2 := ((phi_comp_tendsto (m := m) hs 1).const_mul (s ^ 2)).add ((phi_comp_tendsto (m := m) hs 0).const_mul (2 * s * m))
  have h3 := (h1.const_mul (m ^ 2 + s ^ 2)).sub h2
  simp only [mul_one, mul_zero, add_zero, sub_zero] at h3
  refine h3.congr fun x => ?_
  field_simp; ring

theorem hasMV (hs : 0 < s) : HasMV (f m s) (2 * s * phi (m / s) + m * (1 - 2 * Phi (-(m / s))))
    (m ^ 2 + s ^ 2 - (2 * s * phi (m / s) + m * (1 - 2 * Phi (-(m / s)))) ^ 2) := by
  have hf {x : ℝ} (hx : 0 < x) : f m s x = n m s x + n (-m) s x := by rw [f, if_neg (not_lt.2 hx.le), n_neg]
  obtain ⟨i1, e1⟩ := integral_Ioi_antideriv (a := 0) (g := fun x => x * f m s x)
    (H := fun x => (m * Phi ((x - m) / s) - s * phi ((x - m) / s)) + (-m * Phi ((x - -m) / s) - s * phi ((x - -m) / s)))
    (fun x hx => by simp [f_zero hx])
    ((hasDerivAt_H1 hs.ne' 0).add (hasDerivAt_H1 hs.ne' 0)).continuousAt.continuousWithinAt
    (fun x hx => ((hasDerivAt_H1 hs.ne' x).add (hasDerivAt_H1 hs.ne' x)).congr_deriv (by rw [hf hx]; ring))
    (fun x hx => mul_nonneg hx.le (f_nonneg hs x)) ((tendsto_H1 hs).add (tendsto_H1 hs))
  obtain ⟨i2, e2⟩ := integral_Ioi_antideriv (a := 0) (g := fun x => x ^ 2 * f m s x)
    (H := fun x => ((m ^ 2 + s ^ 2) * Phi ((x - m) / s) - s * (x + m) * phi ((x - m) / s)) +
      (((-m) ^ 2 + s ^ 2) * Phi ((x - -m) / s) - s * (x + -m) * phi ((x - -m) / s)))
    (fun x hx => by simp [f_zero hx])
    ((hasDerivAt_H2 hs.ne' 0).add (hasDerivAt_H2 hs.ne' 0)).continuousAt.continuousWithinAt
    (fun x hx => ((hasDerivAt_H2 hs.ne' x).add (hasDerivAt_H2 hs.ne' x)).congr_deriv (by rw [hf hx]; ring))
    (fun x hx => mul_nonneg (sq_nonneg x) (f_nonneg hs x)) ((tendsto_H2 hs).add (tendsto_H2 hs))
  have a1 : (0 - m) / s = -(m / s) := by ring
  have a2 : (0 - -m) / s = m / s := by ring
  rw [a1, a2, phi_even] at e1 e2
  have h3 := Phi_neg (m / s)
  refine ⟨(isDist hs).integrable, (isDist hs).integral_one, i1, e1.trans ?_, i2, e2.trans ?_⟩
  · rw [h3]; ring
  · rw [h3]; ring

theorem two_phi (r : ℝ) : Real.sqrt (2 / Real.pi) * Real.exp (-(r * r) / 2) = 2 * phi r := by
  have h := Real.pi_pos
  rw [phi, ← pow_two, ← mul_div_assoc, eq_div_iff sqrt_two_pi_pos.ne', mul_right_comm, ← Real.sqrt_mul (by positivity)]
  rw [show 2 / Real.pi * (2 * Real.pi) = 2 ^ 2 by field_simp, Real.sqrt_sq (by norm_num)]

theorem mean_eval (hs : 0 < s) (m : ℝ) :
    mean (fin m) (fin s) = .ok (fin (2 * s * phi (m / s) + m * (1 - 2 * Phi (-(m / s))))) := by
  have h : 0 ≤ 2 / Real.pi := by have := Real.pi_pos; positivity
  simp only [mean, validate_ok hs, ok_bind, fin_div _ hs.ne', ofNat_def, mp.pi_def, fin_div _ Real.pi_pos.ne',
    mp.sqrt_nonneg h, fin_mul, neg_fin, fin_div _ (two_ne_zero (α := ℝ)), mp.exp_fin, mp.ncdf_fin, one_def, fin_sub,
    fin_add, pure_eq_ok]
  rw [mul_assoc, two_phi]; congr 3; ring

theorem var_eval (hs : 0 < s) (m : ℝ) : var (fin m) (fin s) = .ok (fin
    (m ^ 2 + s ^ 2 - (2 * s * phi (m / s) + m * (1 - 2 * Phi (-(m / s)))) ^ 2)) := by
  simp only [var, validate_ok hs, ok_bind, mean_eval hs, fin_mul, fin_add, fin_sub, pure_eq_ok, ← pow_two]

/-! ### Mode -/

theorem tanh_hasDerivAt (x : ℝ) : HasDerivAt Real.tanh (1 / Real.cosh x ^ 2) x := by
  have hc := Real.cosh_pos x
  have h := (Real.hasDerivAt_sinh x).div (Real.hasDerivAt_cosh x) hc.ne'
  have e : Real.tanh = fun x => Real.sinh x / Real.cosh x := funext Real.tanh_eq_sinh_div_cosh
  rw [e]
  refine h.congr_deriv ?_
  have := Real.cosh_sq x
  congr 1; nlinarith

/-- `tanh u / u` decreases. -/
theorem tanh_slope {u v : ℝ} (hu : 0 < u) (huv : u ≤ v) : Real.tanh v * u ≤ Real.tanh u * v := by
  have hd (x : ℝ) : HasDerivAt (fun v => Real.tanh u * v - Real.tanh v * u) (Real.tanh u - 1 / Real.cosh x ^ 2 * u) x := by
    refine (((hasDerivAt_id x).const_mul (Real.tanh u)).sub ((tanh_hasDerivAt x).mul_const u)).congr_deriv ?_
    rw [mul_one]
  have hm : MonotoneOn (fun v => Real.tanh u * v - Real.tanh v * u) (Ici u) := by
    refine monotoneOn_of_deriv_nonneg (convex_Ici _) (fun x _ => (hd x).continuousAt.continuousWithinAt)
      (fun x _ => (hd x).differentiableAt.differentiableWithinAt) fun y hy => ?_
    rw [interior_Ici] at hy
    rw [(hd y).deriv, Real.tanh_eq_sinh_div_cosh]
    have hcu := Real.cosh_pos u
    have hcy := Real.cosh_pos y
    have h1 : u ≤ Real.sinh u := Real.self_le_sinh_iff.2 hu.le
    have h2 : Real.cosh u ≤ Real.cosh y := Real.cosh_le_cosh.2 (by
      rw [abs_of_pos hu, abs_of_pos (hu.trans hy)]; exact hy.le)
    have h3 : 1 ≤ Real.cosh u := Real.one_le_cosh u
    rw [sub_nonneg, one_div, inv_mul_le_iff₀ (by positivity), ← mul_div_assoc, le_div_iff₀ hcu]
    have h4 : Real.cosh u ≤ Real.cosh y ^ 2 := by nlinarith
    have h5 : 0 ≤ Real.sinh u := hu.le.trans h1
    nlinarith [mul_le_mul h4 h1 hu.le (by positivity)]
  have := hm (mem_Ici.2 le_rfl) (mem_Ici.2 huv) huv
  simp only [mul_comm] at this ⊢
  linarith

theorem tanh_le {u : ℝ} (hu : 0 ≤ u) : Real.tanh u ≤ u := by
  have hm : MonotoneOn (fun v => v - Real.tanh v) (Ici 0) := by
    have hd (x : ℝ) : HasDerivAt (fun v => v - Real.tanh v) (1 - 1 / Real.cosh x ^ 2) x :=
      (hasDerivAt_id x).sub (tanh_hasDerivAt x)
    refine monotoneOn_of_deriv_nonneg (convex_Ici _) (fun x _ => (hd x).continuousAt.continuousWithinAt)
      (fun x _ => (hd x).differentiableAt.differentiableWithinAt) fun y hy => ?_
    rw [(hd y).deriv, sub_nonneg, div_le_one (by have := Real.cosh_pos y; positivity)]
    nlinarith [Real.one_le_cosh y]
  have := hm (mem_Ici.2 le_rfl) (mem_Ici.2 hu) hu
  simp at this; linarith

/-- the density in standard form -/
theorem f_cosh (hs : 0 < s) {x : ℝ} (hx : 0 ≤ x) :
    f m s x = 2 * phi (m / s) / s * (Real.exp (-(x / s) ^ 2 / 2) * Real.cosh (|m| / s * (x / s))) := by
  have hab : Real.cosh (|m| / s * (x / s)) = Real.cosh (m / s * (x / s)) := by
    rcases abs_cases m with ⟨h, _⟩ | ⟨h, _⟩
    · rw [h]
    · rw [h, neg_div, neg_mul, Real.cosh_neg]
  rw [hab, f, if_neg (not_lt.2 hx), n, n, Real.cosh_eq]
  set z := x / s
  set r := m / s
  have e1 : (x - m) / s = z - r := by simp only [z, r]; ring
  have e2 : (-x - m) / s = -(z + r) := by simp only [z, r]; ring
  rw [e1, e2, phi_even]
  have p1 : phi (z - r) = phi r * (Real.exp (-z ^ 2 / 2) * Real.exp (r * z)) := by
    rw [phi, phi, ← Real.exp_add, div_mul_eq_mul_div, ← Real.exp_add]; congr 2; ring
  have p2 : phi (z + r) = phi r * (Real.exp (-z ^ 2 / 2) * Real.exp (-(r * z))) := by
    rw [phi, phi, ← Real.exp_add, div_mul_eq_mul_div, ← Real.exp_add]; congr 2; ring
  rw [p1, p2]; ring

noncomputable def k (r z : ℝ) : ℝ := Real.exp (-z ^ 2 / 2) * Real.cosh (r * z)
theorem k_hasDerivAt (r z : ℝ) : HasDerivAt (k r) (Real.exp (-z ^ 2 / 2) * Real.cosh (r * z) * (r * Real.tanh (r * z) - z)) z := by
  have h1 : HasDerivAt (fun x : ℝ => -x ^ 2 / 2) (-z) z := by
    refine ((hasDerivAt_pow 2 z).neg.div_const 2).congr_deriv ?_; norm_num; ring
  have h2 : HasDerivAt (fun x : ℝ => r * x) r z := by simpa using (hasDerivAt_id z).const_mul r
  refine (h1.exp.mul h2.cosh).congr_deriv ?_
  rw [Real.tanh_eq_sinh_div_cosh]; have := (Real.cosh_pos (r * z)).ne'; field_simp; ring

theorem k_le_zero {r : ℝ} (h0 : 0 ≤ r) (h1 : r ≤ 1) {z : ℝ} (hz : 0 ≤ z) : k r z ≤ k r 0 := by
  refine le_of_unimodal (k_hasDerivAt r) le_rfl (fun x h h' => absurd h (not_le.2 h')) (fun x hx => ?_) hz
  have hc := Real.cosh_pos (r * x)
  refine mul_nonpos_of_nonneg_of_nonpos (by positivity) ?_
  have := tanh_le (mul_nonneg h0 hx.le)
  nlinarith [mul_nonneg h0 hx.le, mul_le_mul_of_nonneg_left this h0]

theorem k_le_root {r t : ℝ} (h0 : 0 < r) (ht : 0 < t) (hr : t - r * Real.tanh (r * t) = 0) {z : ℝ} (hz : 0 ≤ z) :
    k r z ≤ k r t := by
  have hrt : r * Real.tanh (r * t) = t := by linarith
  refine le_of_unimodal (k_hasDerivAt r) ht.le (fun x hx hxt => ?_) (fun x hx => ?_) hz
  · have hc := Real.cosh_pos (r * x)
    refine mul_nonneg (by positivity) (sub_nonneg.2 ?_)
    rcases hx.eq_or_lt with rfl | hx
    · simp
    · have h := tanh_slope (mul_pos h0 hx) (mul_le_mul_of_nonneg_left hxt.le h0.le)
      have h2 : r * Real.tanh (r * t) * x ≤ r * Real.tanh (r * x) * t := by nlinarith
      rw [hrt, mul_comm] at h2
      exact le_of_mul_le_mul_right h2 ht
  · have hc := Real.cosh_pos (r * x)
    refine mul_nonpos_of_nonneg_of_nonpos (by positivity) (sub_nonpos.2 ?_)
    have h := tanh_slope (mul_pos h0 ht) (mul_le_mul_of_nonneg_left hx.le h0.le)
    have h2 : r * Real.tanh (r * x) * t ≤ r * Real.tanh (r * t) * x := by nlinarith
    rw [hrt, mul_comm t] at h2
    exact le_of_mul_le_mul_right h2 ht

/-- near 0 the equation for the mode is negative -/
theorem modeEq_small {r : ℝ} (hr : 1 < r) : ∃ ε > 0, ∀ x, 0 < x → x < ε → x - r * Real.tanh (r * x) < 0 := by
  have h2 : HasDerivAt (fun x : ℝ => r * x) r 0 := by simpa using (hasDerivAt_id (0:ℝ)).const_mul r
  have h3 : HasDerivAt (fun x : ℝ => x - r * Real.tanh (r * x)) (1 - r * r) 0 := by
    have h4 : HasDerivAt Real.tanh (1 / Real.cosh (r * 0) ^ 2) (r * 0) := tanh_hasDerivAt _
    have := (hasDerivAt_id (0:ℝ)).sub ((h4.comp 0 h2).const_mul r)
    refine this.congr_deriv ?_
    simp
  have hneg : (1 - r * r) < 0 := by nlinarith
  have h5 := hasDerivAt_iff_tendsto_slope.1 h3
  have h6 : ∀ᶠ x in 𝓝[≠] (0:ℝ), slope (fun x : ℝ => x - r * Real.tanh (r * x)) 0 x < 0 :=
    h5.eventually (Iio_mem_nhds hneg)
  rw [eventually_nhdsWithin_iff, Metric.eventually_nhds_iff] at h6
  obtain ⟨ε, hε, h⟩ := h6
  refine ⟨ε, hε, fun x hx hxε => ?_⟩
  have := h (show dist x 0 < ε by rw [Real.dist_eq, sub_zero, abs_of_pos hx]; exact hxε) hx.ne'
  rw [slope_def_field] at this
  simp only [sub_zero, mul_zero, Real.tanh_zero] at this
  rcases div_neg_iff.1 this with ⟨_, h2⟩ | ⟨h1, _⟩
  · linarith
  · exact h1

/-- The search for a starting point ends, at a point where the equation is negative. -/
theorem modeGetstart_ends {r : ℝ} (hr : 1 < r) : ∃ N, ∃ x : ℝ, 0 < x ∧ x ≤ r ∧ x - r * Real.tanh (r * x) < 0 ∧
    ∀ fuel ≥ N, modeGetstart fuel (fin r) = .ok (fin x) := by
  obtain ⟨ε, hε, h⟩ := modeEq_small hr
  have hd : ∀ s : Num, (∃ x : ℝ, s = fin x ∧ 0 < x ∧ x ≤ r) → modeEq s (fin r) ≥ 0 →
      ∃ x : ℝ, s = fin x ∧ ε ≤ x ∧ x ≤ r := by
    rintro _ ⟨x, rfl, h0, h1⟩ hc
    refine ⟨x, rfl, ?_, h1⟩
    by_contra hx
    have := h x h0 (not_le.1 hx)
    simp [modeEq] at hc
    linarith
  obtain ⟨N, t, ⟨x, rfl, h0, h1⟩, h2, h3⟩ := loop_ends (cond := fun x => .ok (modeEq x (fin r) ≥ 0))
    (step := fun x => x /. 2) (I := fun s => ∃ x : ℝ, s = fin x ∧ 0 < x ∧ x ≤ r)
    (m := fun s => match s with | fin x => ⌊x / ε⌋₊ | _ => 0) (C := fun x => modeEq x (fin r) ≥ 0)
    (f := fun s => match s with | fin x => fin (x / 2) | _ => 0) (fun _ _ => rfl)
    (fun s hs _ => by obtain ⟨x, rfl, _⟩ := hs; rw [ofNat_def, fin_div _ two_ne_zero])
    (fun s hs _ => by obtain ⟨x, rfl, h0, h1⟩ := hs; exact ⟨x / 2, rfl, by positivity, by linarith⟩)
    (fun s hs hc => by
      obtain ⟨x, rfl, hx, _⟩ := hd s hs hc
      have h1 : 1 ≤ ⌊x / ε⌋₊ := Nat.le_floor (by rw [Nat.cast_one, le_div_iff₀ hε]; linarith)
      have h2 : ⌊x / 2 / ε⌋₊ = ⌊x / ε⌋₊ / 2 := by
        rw [div_right_comm]; exact Nat.floor_div_ofNat _ _
      simp only [h2]; omega)
    (s := fin r) ⟨r, rfl, by linarith, le_rfl⟩
  refine ⟨N, x, h0, h1, ?_, h3⟩
  simpa [modeEq] using h2

theorem modeEq_root {r : ℝ} (hr : 1 < r) : ∃ t, 0 < t ∧ t - r * Real.tanh (r * t) = 0 := by
  obtain ⟨ε, hε, h⟩ := modeEq_small hr
  have hc : Continuous fun t : ℝ => t - r * Real.tanh (r * t) := by
    have : Continuous Real.tanh := continuous_iff_continuousAt.2 fun x => (tanh_hasDerivAt x).continuousAt
    fun_prop
  have h0 : 0 < min (ε / 2) r := lt_min (by positivity) (by linarith)
  have h1 := h _ h0 ((min_le_left _ _).trans_lt (by linarith))
  have h2 : 0 ≤ r - r * Real.tanh (r * r) := by
    nlinarith [Real.tanh_lt_one (r * r)]
  obtain ⟨t, ht, e⟩ := intermediate_value_Icc (min_le_right _ _) hc.continuousOn ⟨h1.le, h2⟩
  exact ⟨t, h0.trans_le ht.1, e⟩

theorem f_le_of_k (hs : 0 < s) {t : ℝ} (ht : 0 ≤ t) (h : ∀ z, 0 ≤ z → k (|m| / s) z ≤ k (|m| / s) t) (y : ℝ) :
    f m s y ≤ f m s (s * t) := by
  rcases lt_or_ge y 0 with hy | hy
  · rw [f_zero hy]; exact f_nonneg hs _
  · rw [f_cosh hs hy, f_cosh hs (mul_nonneg hs.le ht), mul_div_cancel_left₀ _ hs.ne']
    exact mul_le_mul_of_nonneg_left (h (y / s) (by positivity)) (by have := phi_pos (m / s); positivity)

theorem pdf_returns (hs : 0 < s) (x : ℝ) : Returns (pdf (fin x) (fin m) (fin s)) := ⟨_, pdf_eval hs x⟩
theorem logpdf_returns (hs : 0 < s) (x : ℝ) : Returns (logpdf (fin x) (fin m) (fin s)) := by
  rcases lt_or_ge x 0 with hx | hx
  exacts [⟨_, logpdf_off hs hx⟩, ⟨_, logpdf_on hs hx⟩]

end Mpsci.folded_normal
