import Verif.Lemmas.BetaPrimeDist
import Verif.Lemmas.Halves
import Verif.Base.Hyp2f1
import Mathlib.MeasureTheory.Integral.IntervalIntegral.IntegrationByParts

/-! Student's t distribution: its square, divided by the number of degrees of freedom, has a beta prime distribution. -/

namespace Mpsci.tD

open Classical MeasureTheory Set Filter Topology

variable {v : ℝ}

/-- the density without the normalising constant -/
noncomputable def w (v x : ℝ) : ℝ := (1 + x ^ 2 / v) ^ (-((v + 1) / 2))
noncomputable def C (v : ℝ) : ℝ := 1 / (√v * betaFn (1 / 2) (v / 2))
noncomputable def f (v x : ℝ) : ℝ := C v * w v x
noncomputable def F (v x : ℝ) : ℝ := 1 / 2 + C v * ∫ t in (0:ℝ)..x, w v t

theorem base_pos (hv : 0 < v) (x : ℝ) : 0 < 1 + x ^ 2 / v := by positivity
theorem w_pos (hv : 0 < v) (x : ℝ) : 0 < w v x := Real.rpow_pos_of_pos (base_pos hv x) _
theorem betaFn_pos' (hv : 0 < v) : 0 < betaFn (1 / 2) (v / 2) := betaFn_pos (by norm_num) (by linarith)
theorem C_pos (hv : 0 < v) : 0 < C v := one_div_pos.2 (mul_pos (Real.sqrt_pos.2 hv) (betaFn_pos' hv))
theorem f_pos (hv : 0 < v) (x : ℝ) : 0 < f v x := mul_pos (C_pos hv) (w_pos hv x)
theorem w_neg (x : ℝ) : w v (-x) = w v x := by rw [w, w, neg_sq]
theorem w_cont (hv : 0 < v) : Continuous (w v) :=
  Continuous.rpow_const (by fun_prop) fun x => Or.inl (base_pos hv x).ne'

theorem hasDerivAt_F (hv : 0 < v) (x : ℝ) : HasDerivAt (F v) (f v x) x := by
  have h := intervalIntegral.integral_hasDerivAt_right ((w_cont hv).intervalIntegrable 0 x) (w_cont hv).aestronglyMeasurable.stronglyMeasurableAtFilter
    (w_cont hv).continuousAt
  exact (h.const_mul (C v)).const_add (1 / 2)

theorem F_zero : F v 0 = 1 / 2 := by simp [F]
theorem F_neg (x : ℝ) : F v (-x) = 1 - F v x := by
  have h : ∫ t in (0:ℝ)..-x, w v t = -∫ t in (0:ℝ)..x, w v t := by
    have := intervalIntegral.integral_comp_neg (a := 0) (b := x) (w v)
    simp only [w_neg, neg_zero] at this
    rw [this, intervalIntegral.integral_symm]
  rw [F, F, h]; ring

/-- the relation to the beta prime distribution -/
theorem F_eq (hv : 0 < v) {x : ℝ} (hx : 0 ≤ x) : F v x = (1 + bpD.F (1 / 2) (v / 2) (x ^ 2 / v)) / 2 := by
  have hb : 0 < v / 2 := by linarith
  have ha : (0:ℝ) < 1 / 2 := by norm_num
  rcases hx.eq_or_lt with rfl | hx
  · rw [F_zero, bpD.F_nonpos (by simp)]; norm_num
  set D : ℝ → ℝ := fun x => F v x - (1 + bpD.F (1 / 2) (v / 2) (x ^ 2 / v)) / 2 with hD
  have hc : ContinuousOn D (Icc 0 x) := by
    refine Continuous.continuousOn ?_
    have h1 : Continuous (F v) := continuous_iff_continuousAt.2 fun x => (hasDerivAt_F hv x).continuousAt
    have h2 : Continuous (bpD.F (1 / 2) (v / 2)) := (bpD.isDist ha hb).cont
    have h3 : Continuous fun x : ℝ => bpD.F (1 / 2) (v / 2) (x ^ 2 / v) := h2.comp (by fun_prop)
    fun_prop
  have hd : ∀ y ∈ Ioo 0 x, HasDerivAt D ((fun _ => 0) y) y := by
    intro y hy
    have h0 := hy.1
    have hz : 0 < y ^ 2 / v := by positivity
    have h1 : HasDerivAt (bpD.F (1 / 2) (v / 2)) (bpD.g (1 / 2) (v / 2) (y ^ 2 / v)) (y ^ 2 / v) := by
      refine (bpD.hasDerivAt_P ha hb hz).congr_of_eventuallyEq ?_
      filter_upwards [lt_mem_nhds hz] with t ht
      exact bpD.F_pos ht
    have h2 : HasDerivAt (fun y : ℝ => y ^ 2 / v) (2 * y / v) y := by
      simpa using (hasDerivAt_pow 2 y).div_const v
    have h3 := (hasDerivAt_F hv y).sub (((h1.comp y h2).const_add 1).div_const 2)
    refine h3.congr_deriv ?_
    have hsv : 0 < √v := Real.sqrt_pos.2 hv
    have hB := betaFn_pos' hv
    have e1 : (y ^ 2 / v) ^ ((1:ℝ) / 2 - 1) = √v / y := by
      rw [show ((1:ℝ) / 2 - 1) = -(1 / 2) by norm_num, Real.rpow_neg hz.le, ← Real.sqrt_eq_rpow, Real.sqrt_div (sq_nonneg y),
        Real.sqrt_sq h0.le, inv_div]
    have e2 : (1 + y ^ 2 / v) ^ (-((v + 1) / 2)) = ((1 + y ^ 2 / v) ^ (1 / 2 + v / 2))⁻¹ := by
      rw [← Real.rpow_neg (base_pos hv y).le]; congr 1; ring
    have hp : 0 < (1 + y ^ 2 / v) ^ (1 / 2 + v / 2) := Real.rpow_pos_of_pos (base_pos hv y) _
    rw [f, C, w, bpD.g, e1, e2]
    generalize (1 + y ^ 2 / v) ^ (1 / 2 + v / 2) = W at hp
    have hs2 := Real.sq_sqrt hv.le
    field_simp
    rw [hs2]; ring
  obtain ⟨c, _, h⟩ := exists_hasDerivAt_eq_slope D (fun _ => 0) hx hc hd
  have h1 : D x - D 0 = 0 := by
    rcases div_eq_zero_iff.1 h.symm with h | h
    · exact h
    · linarith
  have h2 : D 0 = 0 := by
    simp only [hD]; rw [F_zero, bpD.F_nonpos (by simp)]; norm_num
  rw [h2, sub_zero] at h1
  exact sub_eq_zero.1 h1

theorem isDist (hv : 0 < v) : IsDist (F v) (f v) := by
  have h1 : Tendsto (F v) atTop (𝓝 1) := by
    have h2 := (bpD.isDist (a := 1 / 2) (b := v / 2) (by norm_num) (by linarith)).lim1
    have h3 : Tendsto (fun x : ℝ => x ^ 2 / v) atTop atTop := (tendsto_pow_atTop two_ne_zero).atTop_div_const hv
    have h4 := ((h2.comp h3).const_add 1).div_const 2
    norm_num at h4
    refine h4.congr' ?_
    filter_upwards [eventually_ge_atTop 0] with x hx
    rw [F_eq hv hx]
  refine isDist_univ (hasDerivAt_F hv) (fun x => (f_pos hv x).le) ?_ h1
  have h2 := (h1.comp tendsto_neg_atBot_atTop).const_sub 1
  rw [sub_self] at h2
  refine h2.congr fun x => ?_
  simp [F_neg]

theorem F_strictMono (hv : 0 < v) : StrictMono (F v) :=
  strictMono_of_hasDerivAt_pos (hasDerivAt_F hv) (f_pos hv)

/-! ### Gauss' hypergeometric function -/

theorem F_euler (hv : 0 < v) (x : ℝ) :
    x * eulerInt (1 / 2) ((v + 1) / 2) (3 / 2) (-x ^ 2 / v) = ∫ t in (0:ℝ)..x, w v t := by
  set H : ℝ → ℝ := fun t => ∫ s in (0:ℝ)..x * √t, w v s with hH
  have hF : ∀ y, HasDerivAt (fun y => ∫ s in (0:ℝ)..y, w v s) (w v y) y := fun y =>
    intervalIntegral.integral_hasDerivAt_right ((w_cont hv).intervalIntegrable 0 y)
      (w_cont hv).aestronglyMeasurable.stronglyMeasurableAtFilter (w_cont hv).continuousAt
  have hc : ContinuousOn H (Icc 0 1) := by
    have h1 : Continuous fun y => ∫ s in (0:ℝ)..y, w v s := continuous_iff_continuousAt.2 fun x => (hF x).continuousAt
    exact (h1.comp (by fun_prop : Continuous fun t => x * √t)).continuousOn
  set I : ℝ → ℝ := fun t => x / 2 * (t ^ ((1:ℝ) / 2 - 1) * (1 - t) ^ ((3:ℝ) / 2 - 1 / 2 - 1) * (1 - -x ^ 2 / v * t) ^ (-((v + 1) / 2)))
    with hI
  have hb : ∀ t, 0 < t → 1 - -x ^ 2 / v * t = 1 + (x * √t) ^ 2 / v := fun t ht => by
    rw [mul_pow, Real.sq_sqrt ht.le]; ring
  have hd : ∀ t ∈ Ioo (0:ℝ) 1, HasDerivAt H (I t) t := by
    intro t ht
    have h1 : HasDerivAt (fun t => x * √t) (x * (1 / (2 * √t))) t := (Real.hasDerivAt_sqrt ht.1.ne').const_mul x
    refine ((hF (x * √t)).comp t h1).congr_deriv ?_
    simp only [hI]
    rw [hb t ht.1, w, show ((1:ℝ) / 2 - 1) = -(1 / 2) by norm_num, Real.rpow_neg ht.1.le, ← Real.sqrt_eq_rpow,
      show ((3:ℝ) / 2 - 1 / 2 - 1) = 0 by norm_num, Real.rpow_zero]
    have := Real.sqrt_pos.2 ht.1
    field_simp
  have hi : IntervalIntegrable I volume 0 1 := by
    refine IntervalIntegrable.const_mul ?_ _
    refine IntervalIntegrable.mul_continuousOn ?_ ?_
    · simp only [show ((3:ℝ) / 2 - 1 / 2 - 1) = 0 by norm_num, Real.rpow_zero, mul_one]
      exact intervalIntegral.intervalIntegrable_rpow' (by norm_num)
    · refine ContinuousOn.rpow_const (by fun_prop) fun t ht => Or.inl ?_
      rw [uIcc_of_le zero_le_one] at ht
      have : 0 ≤ x ^ 2 / v * t := mul_nonneg (by positivity) ht.1
      have e : 1 - -x ^ 2 / v * t = 1 + x ^ 2 / v * t := by ring
      rw [e]; positivity
  have h := intervalIntegral.integral_eq_sub_of_hasDerivAt_of_le zero_le_one hc hd hi
  have e1 : H 1 = ∫ t in (0:ℝ)..x, w v t := by simp [hH]
  have e0 : H 0 = 0 := by simp [hH]
  rw [e1, e0, sub_zero] at h
  rw [← h, hI, intervalIntegral.integral_const_mul, eulerInt]
  have e2 : Real.Gamma (3 / 2) = 1 / 2 * Real.Gamma (1 / 2) := by
    rw [show (3:ℝ) / 2 = 1 / 2 + 1 by norm_num, Real.Gamma_add_one (by norm_num)]
  have e3 : Real.Gamma (3 / 2 - 1 / 2) = 1 := by norm_num
  have := (Real.Gamma_pos_of_pos (by norm_num : (0:ℝ) < 1 / 2)).ne'
  rw [e2, e3]
  field_simp

theorem C_eq (hv : 0 < v) : C v = Real.Gamma ((v + 1) / 2) / √(Real.pi * v) / Real.Gamma (v / 2) := by
  have h1 := Real.Gamma_pos_of_pos (by linarith : 0 < v / 2)
  have h2 := Real.Gamma_pos_of_pos (by linarith : 0 < (v + 1) / 2)
  have h3 := Real.sqrt_pos.2 hv
  have h4 := Real.sqrt_pos.2 Real.pi_pos
  rw [C, betaFn, Real.Gamma_one_half_eq, Real.sqrt_mul Real.pi_pos.le, show 1 / 2 + v / 2 = (v + 1) / 2 by ring]
  field_simp

/-! ### The quantile function -/

noncomputable def R (v p : ℝ) : ℝ := √(v * bpD.Q (1 / 2) (v / 2) p)
noncomputable def Q (v p : ℝ) : ℝ := if p < 1 / 2 then -R v (1 - 2 * p) else if p = 1 / 2 then 0 else R v (2 * p - 1)

theorem R_pos (hv : 0 < v) (p : ℝ) : 0 < R v p := Real.sqrt_pos.2 (mul_pos hv (bpD.Q_pos p))
theorem F_R (hv : 0 < v) {p : ℝ} (h0 : 0 < p) (h1 : p < 1) : F v (R v p) = (1 + p) / 2 := by
  rw [F_eq hv (R_pos hv p).le, R, Real.sq_sqrt (mul_pos hv (bpD.Q_pos p)).le, mul_div_cancel_left₀ _ hv.ne',
    bpD.F_Q (by norm_num) (by linarith) p h0 h1]
theorem F_Q (hv : 0 < v) (p : ℝ) (h0 : 0 < p) (h1 : p < 1) : F v (Q v p) = p := by
  rw [Q]
  split_ifs with h2 h3
  · rw [F_neg, F_R hv (by linarith) (by linarith)]; ring
  · rw [F_zero, h3]
  · have : 1 / 2 < p := lt_of_le_of_ne (not_lt.1 h2) (Ne.symm h3)
    rw [F_R hv (by linarith) (by linarith)]; ring

theorem R_eq (hv : 0 < v) (p : ℝ) :
    R v p = √v * (betaD.Q (1 / 2) (v / 2) p ^ ((1:ℝ) / 2) * (1 - betaD.Q (1 / 2) (v / 2) p) ^ (-((1:ℝ) / 2))) := by
  obtain ⟨h0, h1⟩ := betaD.Q_mem (a := 1 / 2) (b := v / 2) p
  rw [R, Real.sqrt_mul hv.le, bpD.Q, Real.sqrt_div h0.le, Real.rpow_neg (by linarith), ← Real.sqrt_eq_rpow, ← Real.sqrt_eq_rpow,
    div_eq_mul_inv]

theorem int_R (hv : 1 < v) : ∃ m, Int01 (R v) m :=
  ⟨_, ((betaD.E_rpow (a := 1 / 2) (b := v / 2) (s := 1 / 2) (t := -(1 / 2)) (by norm_num) (by linarith) (by norm_num) (by linarith)).mul (√v)).congr
    fun p _ _ => R_eq (by linarith) p⟩

theorem not_int_R (hv : 0 < v) (h1 : v ≤ 1) : ¬ IntegrableOn (R v) (Ioo 0 1) := by
  intro h
  refine betaD.not_E_rpow (a := 1 / 2) (b := v / 2) (s := 1 / 2) (t := -(1 / 2)) (by norm_num) (by linarith) (by linarith) ?_
  have h2 : IntegrableOn (fun p => (√v)⁻¹ * R v p) (Ioo 0 1) := h.const_mul (√v)⁻¹
  refine h2.congr_fun (fun p _ => ?_) measurableSet_Ioo
  have := (Real.sqrt_pos.2 hv).ne'
  show (√v)⁻¹ * R v p = _
  rw [R_eq hv]; field_simp

theorem Q_lower {p : ℝ} (h : p < 1 / 2) : Q v p = -R v (1 - 2 * p) := if_pos h
theorem Q_upper {p : ℝ} (h : 1 / 2 < p) : Q v p = R v (2 * p - 1) := by rw [Q, if_neg h.not_gt, if_neg h.ne']

theorem hasM (hv : 1 < v) : HasM (f v) 0 := by
  obtain ⟨m, hm⟩ := int_R hv
  have h := hm.halves (hm.neg) (g := Q v) (fun p _ h => Q_lower h) (fun p h _ => Q_upper h)
  rw [add_neg_cancel, zero_div] at h
  exact HasM.of_int01 (isDist (by linarith)) (F_Q (by linarith)) h

theorem not_int_Q (hv : 0 < v) (h1 : v ≤ 1) : ¬ IntegrableOn (Q v) (Ioo 0 1) :=
  not_integrableOn_of_upper (fun p h _ => Q_upper h) (not_int_R hv h1)

theorem log_f_R (hv : 0 < v) (p : ℝ) :
    -Real.log (f v (R v p)) = -Real.log (C v) + -((v + 1) / 2) * Real.log (1 - betaD.Q (1 / 2) (v / 2) p) := by
  obtain ⟨h0, h1⟩ := betaD.Q_mem (a := 1 / 2) (b := v / 2) p
  have h2 : 0 < 1 - betaD.Q (1 / 2) (v / 2) p := by linarith
  have e : 1 + R v p ^ 2 / v = 1 / (1 - betaD.Q (1 / 2) (v / 2) p) := by
    rw [R, Real.sq_sqrt (mul_pos hv (bpD.Q_pos p)).le, mul_div_cancel_left₀ _ hv.ne', bpD.one_add_Q]
  rw [f, Real.log_mul (C_pos hv).ne' (w_pos hv _).ne', w, Real.log_rpow (base_pos hv _), e, one_div, Real.log_inv]
  ring

theorem f_neg (x : ℝ) : f v (-x) = f v x := by rw [f, f, w_neg]

theorem hasEnt (hv : 0 < v) : HasEnt (f v)
    ((v + 1) / 2 * (psi ((v + 1) / 2) - psi (v / 2)) + Real.log (√v * betaFn (v / 2) (1 / 2))) := by
  refine HasEnt.of_int01 (isDist hv) (F_Q hv) ?_
  have h := (Int01.const (-Real.log (C v))).add ((betaD.E_log1m (a := 1 / 2) (b := v / 2) (by norm_num) (by linarith)).mul (-((v + 1) / 2)))
  have h2 : Int01 (fun p => -Real.log (f v (R v p))) _ := h.congr fun p _ _ => log_f_R hv p
  have h3 := h2.halves h2 (g := fun p => -Real.log (f v (Q v p)))
    (fun p _ h => by rw [Q_lower h, f_neg]) (fun p h _ => by rw [Q_upper h])
  refine cast (congrArg _ ?_) h3
  have hs := Real.sqrt_pos.2 hv
  have hB := betaFn_pos' hv
  rw [C, one_div (√v * _), Real.log_inv, show betaFn (v / 2) (1 / 2) = betaFn (1 / 2) (v / 2) by rw [betaFn, betaFn, mul_comm, add_comm],
    show (1:ℝ) / 2 + v / 2 = (v + 1) / 2 by ring]
  ring

theorem f_le (hv : 0 < v) (x : ℝ) : f v x ≤ f v 0 := by
  refine mul_le_mul_of_nonneg_left ?_ (C_pos hv).le
  rw [w, w]
  refine Real.rpow_le_rpow_of_nonpos (base_pos hv 0) ?_ (by linarith)
  have : 0 ≤ x ^ 2 / v := by positivity
  simpa using this

end Mpsci.tD
