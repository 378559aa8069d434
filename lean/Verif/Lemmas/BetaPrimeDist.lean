import Verif.Lemmas.BetaDist

/-! The standard beta prime distribution: the distribution of `Y / (1 - Y)` for `Y` with a beta distribution. -/

namespace Mpsci.bpD

open Classical MeasureTheory Set Filter Topology

variable {a b : ℝ}

noncomputable def u (x : ℝ) : ℝ := x / (1 + x)
noncomputable def g (a b x : ℝ) : ℝ := x ^ (a - 1) / (1 + x) ^ (a + b) / betaFn a b
noncomputable def F (a b x : ℝ) : ℝ := if x ≤ 0 then 0 else betaD.P a b (u x)
noncomputable def f (a b x : ℝ) : ℝ := if x < 0 then 0 else g a b x
noncomputable def Q (a b p : ℝ) : ℝ := betaD.Q a b p / (1 - betaD.Q a b p)

theorem u_nonneg {x : ℝ} (h : 0 ≤ x) : 0 ≤ u x := div_nonneg h (by linarith)
theorem u_pos {x : ℝ} (h : 0 < x) : 0 < u x := div_pos h (by linarith)
theorem u_lt_one {x : ℝ} (h : 0 ≤ x) : u x < 1 := (div_lt_one (by linarith)).2 (by linarith)
theorem one_sub_u {x : ℝ} (h : 0 ≤ x) : 1 - u x = 1 / (1 + x) := by
  have : 1 + x ≠ 0 := by linarith
  rw [u]; field_simp; ring
theorem u_strictMono {x y : ℝ} (h : 0 ≤ x) (hxy : x < y) : u x < u y := by
  have h1 := one_sub_u h
  have h2 := one_sub_u (h.trans hxy.le)
  have := one_div_lt_one_div_of_lt (by linarith : 0 < 1 + x) (by linarith : 1 + x < 1 + y)
  linarith

theorem F_nonpos {x : ℝ} (h : x ≤ 0) : F a b x = 0 := if_pos h
theorem F_pos {x : ℝ} (h : 0 < x) : F a b x = betaD.P a b (u x) := if_neg h.not_ge
theorem F_nonneg_arg {x : ℝ} (h : 0 ≤ x) : F a b x = betaD.P a b (u x) := by
  rcases h.eq_or_lt with rfl | h
  · rw [F_nonpos le_rfl, u, zero_div, betaD.P_zero]
  · exact F_pos h
theorem f_neg {x : ℝ} (h : x < 0) : f a b x = 0 := if_pos h
theorem f_of_nonneg {x : ℝ} (h : 0 ≤ x) : f a b x = g a b x := if_neg h.not_gt
theorem g_pos (ha : 0 < a) (hb : 0 < b) {x : ℝ} (h : 0 < x) : 0 < g a b x :=
  div_pos (div_pos (Real.rpow_pos_of_pos h _) (Real.rpow_pos_of_pos (by linarith) _)) (betaFn_pos ha hb)
theorem g_nonneg (ha : 0 < a) (hb : 0 < b) {x : ℝ} (h : 0 ≤ x) : 0 ≤ g a b x :=
  div_nonneg (div_nonneg (Real.rpow_nonneg h _) (Real.rpow_nonneg (by linarith) _)) (betaFn_pos ha hb).le
theorem f_nonneg (ha : 0 < a) (hb : 0 < b) (x : ℝ) : 0 ≤ f a b x := by
  rcases lt_or_ge x 0 with h | h
  · rw [f_neg h]
  · rw [f_of_nonneg h]; exact g_nonneg ha hb h

theorem log_g (ha : 0 < a) (hb : 0 < b) {x : ℝ} (h : 0 < x) :
    Real.log (g a b x) = (a - 1) * Real.log x - (a + b) * Real.log (1 + x) - Real.log (betaFn a b) := by
  have h1 : 0 < 1 + x := by linarith
  rw [g, Real.log_div (by positivity) (betaFn_pos ha hb).ne', Real.log_div (by positivity) (by positivity), Real.log_rpow h,
    Real.log_rpow h1]

theorem hasDerivAt_u {x : ℝ} (h : 0 < x) : HasDerivAt u (1 / (1 + x) ^ 2) x := by
  have h1 : 1 + x ≠ 0 := by linarith
  refine ((hasDerivAt_id x).div ((hasDerivAt_id x).const_add 1) h1).congr_deriv ?_
  simp

theorem g_eq {x : ℝ} (h : 0 < x) : betaD.g a b (u x) * (1 / (1 + x) ^ 2) = g a b x := by
  have h1 : 0 < 1 + x := by linarith
  rw [betaD.g, betaD.w, one_sub_u h.le, u, Real.div_rpow h.le h1.le, g, one_div, Real.inv_rpow h1.le]
  have e : (1 + x) ^ (a + b) = (1 + x) ^ (a - 1) * (1 + x) ^ (b - 1) * (1 + x) ^ 2 := by
    rw [← Real.rpow_natCast, ← Real.rpow_add h1, ← Real.rpow_add h1]; congr 1; push_cast; ring
  rw [e]
  field_simp

theorem hasDerivAt_P (ha : 0 < a) (hb : 0 < b) {x : ℝ} (h : 0 < x) :
    HasDerivAt (fun t => betaD.P a b (u t)) (g a b x) x := by
  rw [← g_eq h]
  exact (betaD.hasDerivAt_P ha hb (u_pos h) (u_lt_one h.le)).comp x (hasDerivAt_u h)

theorem isDist (ha : 0 < a) (hb : 0 < b) : IsDist (F a b) (f a b) := by
  refine isDist_Ioi (a := 0) (G := fun t => betaD.P a b (u t)) (fun x => F_nonpos) (fun x => F_pos) (by simp [u, betaD.P_zero]) ?_
    (fun x => f_neg) (f_nonneg ha hb 0) (fun x hx => by rw [f_of_nonneg hx.le]; exact hasDerivAt_P ha hb hx)
    (fun x _ => f_nonneg ha hb x) ?_
  · have h1 : ContinuousWithinAt (betaD.P a b) (Icc 0 1) (u 0) := by
      rw [u, zero_div]; exact betaD.P_cont ha hb 0 ⟨le_rfl, zero_le_one⟩
    have h2 : ContinuousWithinAt u (Ici 0) 0 := by
      refine ContinuousAt.continuousWithinAt ?_
      exact continuousAt_id.div (continuousAt_const.add continuousAt_id) (by simp)
    exact h1.comp h2 fun x hx => ⟨u_nonneg hx, (u_lt_one hx).le⟩
  · have h1 : ContinuousWithinAt (betaD.P a b) (Icc 0 1) 1 := betaD.P_cont ha hb 1 ⟨zero_le_one, le_rfl⟩
    have h2 : Tendsto u atTop (𝓝[Icc 0 1] 1) := by
      refine tendsto_nhdsWithin_iff.2 ⟨?_, ?_⟩
      · have h3 : Tendsto (fun x : ℝ => 1 / (1 + x)) atTop (𝓝 0) := by
          simp only [one_div]
          exact tendsto_inv_atTop_zero.comp (tendsto_atTop_add_const_left _ _ tendsto_id)
        have h4 := h3.const_sub 1
        rw [sub_zero] at h4
        refine h4.congr' ?_
        filter_upwards [eventually_ge_atTop 0] with x hx
        rw [← one_sub_u hx, sub_sub_cancel]
      · filter_upwards [eventually_ge_atTop 0] with x hx
        exact ⟨u_nonneg hx, (u_lt_one hx).le⟩
    have h3 : Tendsto (betaD.P a b) (𝓝[Icc 0 1] 1) (𝓝 (betaD.P a b 1)) := h1
    rw [betaD.P_one ha hb] at h3
    exact h3.comp h2

theorem Q_pos (p : ℝ) : 0 < Q a b p := by
  obtain ⟨h0, h1⟩ := betaD.Q_mem (a := a) (b := b) p
  exact div_pos h0 (by linarith)
theorem one_add_Q (p : ℝ) : 1 + Q a b p = 1 / (1 - betaD.Q a b p) := by
  obtain ⟨h0, h1⟩ := betaD.Q_mem (a := a) (b := b) p
  have : 1 - betaD.Q a b p ≠ 0 := by linarith
  rw [Q]; field_simp; ring
theorem u_Q (p : ℝ) : u (Q a b p) = betaD.Q a b p := by
  obtain ⟨h0, h1⟩ := betaD.Q_mem (a := a) (b := b) p
  have : 1 - betaD.Q a b p ≠ 0 := by linarith
  rw [u, one_add_Q, Q]; field_simp
theorem F_Q (ha : 0 < a) (hb : 0 < b) (p : ℝ) (h0 : 0 < p) (h1 : p < 1) : F a b (Q a b p) = p := by
  rw [F_pos (Q_pos p), u_Q, betaD.P_Q ha hb h0 h1]
theorem F_mem (ha : 0 < a) (hb : 0 < b) {x : ℝ} (h : 0 < x) : 0 < F a b x ∧ F a b x < 1 := by
  rw [F_pos h]; exact ⟨betaD.P_pos ha hb (u_pos h) (u_lt_one h.le).le, betaD.P_lt_one ha hb (u_nonneg h.le) (u_lt_one h.le)⟩
theorem F_inj (ha : 0 < a) (hb : 0 < b) {x : ℝ} (hx : 0 < x) (y : ℝ) (h : F a b y = F a b x) : y = x := by
  rcases le_or_gt y 0 with hy | hy
  · have := (F_mem ha hb hx).1
    rw [F_nonpos hy] at h; linarith
  · rw [F_pos hx, F_pos hy] at h
    have h1 := (betaD.P_strictMonoOn ha hb).injOn ⟨u_nonneg hy.le, (u_lt_one hy.le).le⟩ ⟨u_nonneg hx.le, (u_lt_one hx.le).le⟩ h
    rcases lt_trichotomy y x with h2 | h2 | h2
    · exact absurd h1 (u_strictMono hy.le h2).ne
    · exact h2
    · exact absurd h1 (u_strictMono hx.le h2).ne'

/-! ### Moments -/

theorem Q_pow (n : ℕ) (p : ℝ) : Q a b p ^ n = betaD.Q a b p ^ (n:ℝ) * (1 - betaD.Q a b p) ^ (-(n:ℝ)) := by
  obtain ⟨h0, h1⟩ := betaD.Q_mem (a := a) (b := b) p
  rw [Q, div_pow, Real.rpow_neg (by linarith), Real.rpow_natCast, Real.rpow_natCast, div_eq_mul_inv]

theorem Yn (ha : 0 < a) (hb : 0 < b) (n : ℕ) (hn : n < b) :
    Int01 (fun p => Q a b p ^ n) (betaFn (a + n) (b - n) / betaFn a b) := by
  have h := betaD.E_rpow ha hb (s := n) (t := -(n:ℝ)) (by positivity) (by linarith)
  rw [← sub_eq_add_neg] at h
  exact h.congr fun p _ _ => Q_pow n p

/-- The moments of order `≥ b` do not exist. -/
theorem not_int (ha : 0 < a) (hb : 0 < b) (n : ℕ) (hn : b ≤ n) : ¬ IntegrableOn (fun p => Q a b p ^ n) (Ioo 0 1) := by
  intro h
  refine betaD.not_E_rpow ha hb (s := n) (t := -(n:ℝ)) (by linarith) (h.congr_fun (fun p _ => Q_pow n p) measurableSet_Ioo)

theorem betaFn_step (ha : 0 < a) (hb : 1 < b) : betaFn (a + 1) (b - 1) = a / (b - 1) * betaFn a b := by
  have h1 := Real.Gamma_add_one (s := b - 1) (by linarith)
  have h2 : b - 1 ≠ 0 := by linarith
  have h3 := (Real.Gamma_pos_of_pos (by linarith : 0 < a + b)).ne'
  rw [sub_add_cancel] at h1
  rw [betaFn, betaFn, show a + 1 + (b - 1) = a + b by ring, Real.Gamma_add_one ha.ne', h1]
  field_simp

/-- the ratio of beta functions that gives the `n`th moment -/
noncomputable def m (a b : ℝ) (n : ℕ) : ℝ := betaFn (a + n) (b - n) / betaFn a b

theorem m_zero (ha : 0 < a) (hb : 0 < b) : m a b 0 = 1 := by
  simp [m, div_self (betaFn_pos ha hb).ne']
theorem m_succ (ha : 0 < a) {n : ℕ} (hn : n + 1 < b) : m a b (n + 1) = (a + n) / (b - n - 1) * m a b n := by
  have := betaFn_step (a := a + n) (b := b - n) (by positivity) (by linarith)
  rw [m, m, ← mul_div_assoc, ← this]; push_cast; congr 2 <;> ring
theorem m_one (ha : 0 < a) (hb : 1 < b) : m a b 1 = a / (b - 1) := by
  rw [m_succ ha (n := 0) (by simpa using hb), m_zero ha (by linarith)]; simp
theorem m_two (ha : 0 < a) (hb : 2 < b) : m a b 2 = a * (a + 1) / ((b - 1) * (b - 2)) := by
  rw [m_succ ha (n := 1) (by norm_num; linarith), m_one ha (by linarith)]
  have h1 : b - 1 ≠ 0 := by linarith
  have h2 : b - 2 ≠ 0 := by linarith
  rw [show b - ((1:ℕ):ℝ) - 1 = b - 2 by push_cast; ring]; push_cast; field_simp
theorem m_three (ha : 0 < a) (hb : 3 < b) : m a b 3 = a * (a + 1) * (a + 2) / ((b - 1) * (b - 2) * (b - 3)) := by
  rw [m_succ ha (n := 2) (by norm_num; linarith), m_two ha (by linarith)]
  have h1 : b - 1 ≠ 0 := by linarith
  have h2 : b - 2 ≠ 0 := by linarith
  have h3 : b - 3 ≠ 0 := by linarith
  rw [show b - ((2:ℕ):ℝ) - 1 = b - 3 by push_cast; ring]; push_cast; field_simp
theorem m_four (ha : 0 < a) (hb : 4 < b) :
    m a b 4 = a * (a + 1) * (a + 2) * (a + 3) / ((b - 1) * (b - 2) * (b - 3) * (b - 4)) := by
  rw [m_succ ha (n := 3) (by norm_num; linarith), m_three ha (by linarith)]
  have h1 : b - 1 ≠ 0 := by linarith
  have h2 : b - 2 ≠ 0 := by linarith
  have h3 : b - 3 ≠ 0 := by linarith
  have h4 : b - 4 ≠ 0 := by linarith
  rw [show b - ((3:ℕ):ℝ) - 1 = b - 4 by push_cast; ring]; push_cast; field_simp
theorem Y1 (ha : 0 < a) (hb : 1 < b) : Int01 (Q a b) (m a b 1) :=
  (Yn ha (by linarith) 1 (by simpa using hb)).congr fun p _ _ => (pow_one _).symm
theorem var_eq (ha : 0 < a) (hb : 2 < b) : m a b 2 - m a b 1 ^ 2 = a * (a + b - 1) / ((b - 2) * (b - 1) ^ 2) := by
  have h1 : b - 1 ≠ 0 := by linarith
  have h2 : b - 2 ≠ 0 := by linarith
  rw [m_two ha hb, m_one ha (by linarith)]; field_simp; ring

theorem hasEnt (ha : 0 < a) (hb : 0 < b) : HasEnt (f a b)
    (Real.log (betaFn a b) + (1 - a) * psi a - (1 + b) * psi b + (a + b) * psi (a + b)) := by
  refine HasEnt.of_int01 (isDist ha hb) (F_Q ha hb) ?_
  have h := ((Int01.const (Real.log (betaFn a b))).add ((betaD.E_log ha hb).mul (1 - a))).add ((betaD.E_log1m ha hb).mul (-(1 + b)))
  rw [show Real.log (betaFn a b) + (1 - a) * (psi a - psi (a + b)) + -(1 + b) * (psi b - psi (a + b)) =
    Real.log (betaFn a b) + (1 - a) * psi a - (1 + b) * psi b + (a + b) * psi (a + b) by ring] at h
  refine h.congr fun p _ _ => ?_
  obtain ⟨h0, h1⟩ := betaD.Q_mem (a := a) (b := b) p
  have h2 : 0 < 1 - betaD.Q a b p := by linarith
  rw [f_of_nonneg (Q_pos p).le, log_g ha hb (Q_pos p), one_add_Q, Q, Real.log_div h0.ne' h2.ne', one_div, Real.log_inv]; ring

/-! ### The mode -/

theorem g_le (ha : 1 ≤ a) (hb : 0 < b) {x : ℝ} (hx : 0 ≤ x) : g a b x ≤ g a b ((a - 1) / (b + 1)) := by
  have hB := betaFn_pos (by linarith : 0 < a) hb
  have hb1 : 0 < b + 1 := by linarith
  have hab : 0 < a + b := by linarith
  have h1x : 0 < 1 + x := by linarith
  refine div_le_div_of_nonneg_right ?_ hB.le
  rcases ha.eq_or_lt with rfl | ha
  · simp only [sub_self, zero_div, Real.rpow_zero, add_zero, Real.one_rpow, div_one]
    exact (div_le_one (by positivity)).2 (Real.one_le_rpow (by linarith) hab.le)
  · have ha1 : 0 < a - 1 := by linarith
    set t := (a - 1) / (b + 1) with ht
    have t0 : 0 < t := div_pos ha1 hb1
    have t1 : 0 < 1 + t := by linarith
    have hR : 0 < t ^ (a - 1) / (1 + t) ^ (a + b) := by positivity
    rcases hx.eq_or_lt with rfl | hx
    · rw [Real.zero_rpow ha1.ne', zero_div]; exact hR.le
    rw [← Real.log_le_log_iff (by positivity) hR, Real.log_div (by positivity) (by positivity),
      Real.log_div (by positivity) (by positivity), Real.log_rpow hx, Real.log_rpow h1x, Real.log_rpow t0, Real.log_rpow t1]
    -- with `u x`, this is the same statement as for the beta distribution with parameters `a` and `b + 2`
    have l1 := Real.log_le_sub_one_of_pos (show 0 < x * (1 + t) / (t * (1 + x)) by positivity)
    have l2 := Real.log_le_sub_one_of_pos (show 0 < (1 + t) / (1 + x) by positivity)
    rw [Real.log_div (by positivity) (by positivity), Real.log_mul hx.ne' t1.ne', Real.log_mul t0.ne' h1x.ne'] at l1
    rw [Real.log_div t1.ne' h1x.ne'] at l2
    have k1 := mul_le_mul_of_nonneg_left l1 ha1.le
    have k2 := mul_le_mul_of_nonneg_left l2 hb1.le
    have e : (a - 1) * (x * (1 + t) / (t * (1 + x)) - 1) + (b + 1) * ((1 + t) / (1 + x) - 1) = 0 := by
      have : a - 1 = t * (b + 1) := by rw [ht]; field_simp
      rw [this]; field_simp; ring
    linarith

theorem f_le (ha : 1 ≤ a) (hb : 0 < b) (x : ℝ) : f a b x ≤ f a b ((a - 1) / (b + 1)) := by
  have hm : 0 ≤ (a - 1) / (b + 1) := div_nonneg (by linarith) (by linarith)
  rw [f_of_nonneg hm]
  rcases lt_or_ge x 0 with h | h
  · rw [f_neg h]; exact g_nonneg (by linarith) hb hm
  · rw [f_of_nonneg h]; exact g_le ha hb h

theorem g_anti (ha : 0 < a) (ha1 : a ≤ 1) (hb : 0 < b) {x y : ℝ} (hx : 0 < x) (hxy : x < y) : g a b y < g a b x := by
  refine div_lt_div_of_pos_right ?_ (betaFn_pos ha hb)
  have h1 : y ^ (a - 1) ≤ x ^ (a - 1) := Real.rpow_le_rpow_of_nonpos hx hxy.le (by linarith)
  have h2 : (1 + x) ^ (a + b) < (1 + y) ^ (a + b) := Real.rpow_lt_rpow (by linarith) (by linarith) (by linarith)
  exact div_lt_div₀' h1 h2 (Real.rpow_pos_of_pos (by linarith) _) (Real.rpow_pos_of_pos (by linarith) _)

end Mpsci.bpD
