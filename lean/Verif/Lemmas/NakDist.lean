import Verif.Lemmas.GammaDist
import Verif.Lemmas.Dist.Gamma
import Mathlib.NumberTheory.Harmonic.GammaDeriv

/-! The distribution of `√(X / c)` for a gamma variate `X` of shape `a`: chi, Maxwell and Nakagami distributions. -/

namespace Mpsci.nakD

open Set Filter Topology MeasureTheory

variable {a c : ℝ}

noncomputable def F (a c z : ℝ) : ℝ := if z ≤ 0 then 0 else gammaD.P a (c * z ^ 2)
noncomputable def f (a c z : ℝ) : ℝ := if z ≤ 0 then 0 else gammaD.g a (c * z ^ 2) * (2 * c * z)
noncomputable def Q (a c p : ℝ) : ℝ := √(gammaD.Q a p / c)

theorem F_nonpos {z : ℝ} (h : z ≤ 0) : F a c z = 0 := if_pos h
theorem F_pos {z : ℝ} (h : 0 < z) : F a c z = gammaD.P a (c * z ^ 2) := if_neg (not_le.2 h)
theorem f_nonpos {z : ℝ} (h : z ≤ 0) : f a c z = 0 := if_pos h
theorem f_of_pos {z : ℝ} (h : 0 < z) : f a c z = gammaD.g a (c * z ^ 2) * (2 * c * z) := if_neg (not_le.2 h)

theorem f_pos (ha : 0 < a) (hc : 0 < c) {z : ℝ} (h : 0 < z) : 0 < f a c z := by
  rw [f_of_pos h]; have := gammaD.g_pos ha (show 0 < c * z ^ 2 by positivity); positivity
theorem f_nonneg (ha : 0 < a) (hc : 0 < c) (z : ℝ) : 0 ≤ f a c z := by
  rcases le_or_gt z 0 with h | h
  · exact (f_nonpos h).ge
  · exact (f_pos ha hc h).le

/-- the closed form -/
theorem f_eq (hc : 0 < c) {z : ℝ} (h : 0 < z) : f a c z = 2 * c ^ a * z ^ (2 * a - 1) * Real.exp (-(c * z ^ 2)) / Real.Gamma a := by
  rw [f_of_pos h, gammaD.g, Real.mul_rpow hc.le (by positivity), ← Real.rpow_natCast z 2, ← Real.rpow_mul h.le]
  have e1 : c ^ a = c ^ (a - 1) * c := by rw [Real.rpow_sub_one hc.ne']; field_simp
  have e2 : z ^ (2 * a - 1) = z ^ (((2:ℕ):ℝ) * (a - 1)) * z := by
    rw [← Real.rpow_add_one h.ne']; congr 1; push_cast; ring
  rw [e1, e2]; ring

theorem log_f (ha : 0 < a) (hc : 0 < c) {z : ℝ} (h : 0 < z) : Real.log (f a c z) =
    Real.log 2 + a * Real.log c - Real.log (Real.Gamma a) + (2 * a - 1) * Real.log z - c * z ^ 2 := by
  have hg := gammaD.Gpos ha
  rw [f_eq hc h, Real.log_div (by positivity) hg.ne', Real.log_mul (by positivity) (by positivity),
    Real.log_mul (by positivity) (by positivity), Real.log_mul (by positivity) (by positivity), Real.log_exp, Real.log_rpow hc, Real.log_rpow h]
  ring

theorem isDist (ha : 0 < a) (hc : 0 < c) : IsDist (F a c) (f a c) := by
  refine gammaD.isDist_map ha (u := fun z => c * z ^ 2) (u' := fun z => 2 * c * z) (a := 0) (fun z h => F_nonpos h) (fun z h => F_pos h)
    (fun z h => by positivity) (by simp) (by fun_prop) (fun z _ => ?_) (fun z h => by positivity) ?_ (fun z h => f_nonpos h.le)
    (f_nonneg ha hc 0) fun z h => f_of_pos h
  · have := (hasDerivAt_pow 2 z).const_mul c
    refine this.congr_deriv ?_
    push_cast; ring
  · exact (tendsto_pow_atTop two_ne_zero).const_mul_atTop hc

theorem Q_pos (hc : 0 < c) (p : ℝ) : 0 < Q a c p := Real.sqrt_pos.2 (div_pos (gammaD.Q_pos p) hc)
theorem c_Q (hc : 0 < c) (p : ℝ) : c * Q a c p ^ 2 = gammaD.Q a p := by
  rw [Q, Real.sq_sqrt (div_nonneg (gammaD.Q_pos p).le hc.le)]; field_simp
theorem F_Q (ha : 0 < a) (hc : 0 < c) (p : ℝ) (h0 : 0 < p) (h1 : p < 1) : F a c (Q a c p) = p := by
  rw [F_pos (Q_pos hc p), c_Q hc, gammaD.P_Q ha h0 h1]

theorem F_mem (ha : 0 < a) (hc : 0 < c) {z : ℝ} (h : 0 < z) : 0 < F a c z ∧ F a c z < 1 := by
  have hz : 0 < c * z ^ 2 := by positivity
  rw [F_pos h]; exact ⟨gammaD.P_pos ha hz, gammaD.P_lt_one ha hz.le⟩

theorem F_unique (ha : 0 < a) (hc : 0 < c) {x : ℝ} (hx : 0 < x) (y : ℝ) (h : F a c y = F a c x) : y = x := by
  rcases le_or_gt y 0 with hy | hy
  · have := (F_mem ha hc hx).1
    rw [F_nonpos hy] at h; linarith
  · rw [F_pos hx, F_pos hy] at h
    have hx' : 0 ≤ c * x ^ 2 := by positivity
    have hy' : 0 ≤ c * y ^ 2 := by positivity
    have := mul_left_cancel₀ hc.ne' ((gammaD.P_strictMonoOn ha).injOn hy' hx' h)
    exact (pow_left_inj₀ hy.le hx.le two_ne_zero).1 this

/-! ### Moments -/

theorem Yn (ha : 0 < a) (hc : 0 < c) (n : ℕ) :
    Int01 (fun p => Q a c p ^ n) (c ^ (-((n:ℝ) / 2)) * (Real.Gamma (a + n / 2) / Real.Gamma a)) := by
  have h := (gammaD.E_rpow ha (s := (n:ℝ) / 2) (by positivity)).mul (c ^ (-((n:ℝ) / 2)))
  refine h.congr fun p _ _ => ?_
  have hq := gammaD.Q_pos (k := a) p
  rw [Q, Real.sqrt_eq_rpow, ← Real.rpow_natCast, ← Real.rpow_mul (div_nonneg hq.le hc.le), Real.div_rpow hq.le hc.le, Real.rpow_neg hc.le,
    show (1:ℝ) / 2 * n = n / 2 by ring]
  field_simp

theorem Y1 (ha : 0 < a) (hc : 0 < c) : Int01 (Q a c) (Real.Gamma (a + 1 / 2) / Real.Gamma a / √c) := by
  have h := Yn ha hc 1
  have e : c ^ (-(((1:ℕ):ℝ) / 2)) * (Real.Gamma (a + ((1:ℕ):ℝ) / 2) / Real.Gamma a) = Real.Gamma (a + 1 / 2) / Real.Gamma a / √c := by
    rw [Nat.cast_one, Real.rpow_neg hc.le, ← Real.sqrt_eq_rpow]; field_simp
  rw [e] at h
  exact h.congr fun p _ _ => by simp

theorem Y2 (ha : 0 < a) (hc : 0 < c) : Int01 (fun p => Q a c p ^ 2) (a / c) := by
  have h := Yn ha hc 2
  have e : c ^ (-(((2:ℕ):ℝ) / 2)) * (Real.Gamma (a + ((2:ℕ):ℝ) / 2) / Real.Gamma a) = a / c := by
    have := (gammaD.Gpos ha).ne'
    rw [show (((2:ℕ):ℝ) / 2) = 1 by norm_num, Real.rpow_neg_one, Real.Gamma_add_one ha.ne']; field_simp
  rwa [e] at h

theorem Ylog (ha : 0 < a) (hc : 0 < c) : Int01 (fun p => Real.log (Q a c p)) ((psi a - Real.log c) / 2) := by
  have h := ((gammaD.E_log1 ha).sub (Int01.const (Real.log c))).mul (1 / 2)
  rw [show 1 / 2 * (psi a - Real.log c) = (psi a - Real.log c) / 2 by ring] at h
  refine h.congr fun p _ _ => ?_
  have hq := gammaD.Q_pos (k := a) p
  rw [Q, Real.log_sqrt (div_nonneg hq.le hc.le), Real.log_div hq.ne' hc.ne']; ring

theorem hasEnt (ha : 0 < a) (hc : 0 < c) :
    HasEnt (f a c) ((1 / 2 - a) * psi a - Real.log c / 2 + a + Real.log (Real.Gamma a) - Real.log 2) := by
  refine HasEnt.of_int01 (isDist ha hc) (F_Q ha hc) ?_
  have h := (((Ylog ha hc).mul (1 - 2 * a)).add (gammaD.E_id ha)).add (Int01.const (Real.log (Real.Gamma a) - Real.log 2 - a * Real.log c))
  rw [show (1 - 2 * a) * ((psi a - Real.log c) / 2) + a + (Real.log (Real.Gamma a) - Real.log 2 - a * Real.log c) =
    (1 / 2 - a) * psi a - Real.log c / 2 + a + Real.log (Real.Gamma a) - Real.log 2 by ring] at h
  refine h.congr fun p _ _ => ?_
  rw [log_f ha hc (Q_pos hc p), c_Q hc]; ring

/-! ### The mode -/

theorem f_eq_g (ha : 0 < a) (hc : 0 < c) {z : ℝ} (h : 0 < z) :
    f a c z = 2 * √c * (Real.Gamma (a + 1 / 2) / Real.Gamma a) * gammaD.g (a + 1 / 2) (c * z ^ 2) := by
  have h1 := gammaD.Gpos ha
  have h2 := gammaD.Gpos (show 0 < a + 1 / 2 by linarith)
  have hz : 0 < c * z ^ 2 := by positivity
  have e : √c * z = (c * z ^ 2) ^ (1 / 2 : ℝ) := by
    rw [← Real.sqrt_eq_rpow, Real.sqrt_mul hc.le, Real.sqrt_sq h.le]
  have e2 : (c * z ^ 2) ^ (a + 1 / 2 - 1) = (c * z ^ 2) ^ (a - 1) * (√c * z) := by
    rw [e, ← Real.rpow_add hz]; congr 1; ring
  have e3 : c = √c * √c := (Real.mul_self_sqrt hc.le).symm
  rw [f_of_pos h, gammaD.g, gammaD.g, e2]
  have : 2 * c * z = 2 * (√c * √c) * z := by rw [← e3]
  rw [this]
  field_simp

theorem f_le (ha : 1 / 2 < a) (hc : 0 < c) (z : ℝ) : f a c z ≤ f a c (√((a - 1 / 2) / c)) := by
  have ha0 : 0 < a := by linarith
  have hm : 0 < √((a - 1 / 2) / c) := Real.sqrt_pos.2 (div_pos (by linarith) hc)
  rcases le_or_gt z 0 with h | h
  · rw [f_nonpos h]; exact f_nonneg ha0 hc _
  · rw [f_eq_g ha0 hc h, f_eq_g ha0 hc hm, Real.sq_sqrt (div_nonneg (by linarith) hc.le),
      show c * ((a - 1 / 2) / c) = (a + 1 / 2) - 1 by field_simp; ring]
    have h1 := gammaD.Gpos ha0
    have h2 := gammaD.Gpos (show 0 < a + 1 / 2 by linarith)
    exact mul_le_mul_of_nonneg_left (gamma.g_le (by linarith) (by positivity)) (by positivity)

theorem f_anti (ha0 : 0 < a) (ha : a ≤ 1 / 2) (hc : 0 < c) {x y : ℝ} (hx : 0 < x) (hxy : x < y) : f a c y < f a c x := by
  rw [f_eq_g ha0 hc hx, f_eq_g ha0 hc (hx.trans hxy)]
  have h1 := gammaD.Gpos ha0
  have h2 := gammaD.Gpos (show 0 < a + 1 / 2 by linarith)
  have h3 : 0 < √c := Real.sqrt_pos.2 hc
  have hy : 0 < y := hx.trans hxy
  refine mul_lt_mul_of_pos_left (gamma.g_antitone (by linarith) (by linarith) (by positivity) ?_) (by positivity)
  exact mul_lt_mul_of_pos_left (pow_lt_pow_left₀ hxy hx.le two_ne_zero) hc

theorem psi_half : psi (1 / 2) = -Real.eulerMascheroniConstant - 2 * Real.log 2 := by
  rw [psi, Real.hasDerivAt_Gamma_one_half.deriv, Real.Gamma_one_half_eq]
  have := Real.sqrt_pos.2 Real.pi_pos
  field_simp; ring

theorem psi_three_halves : psi (3 / 2) = 2 - Real.eulerMascheroniConstant - 2 * Real.log 2 := by
  have h := psi_add_one (x := 1 / 2) (by norm_num)
  rw [show (1:ℝ) / 2 + 1 = 3 / 2 by norm_num, psi_half] at h
  rw [h]; norm_num; ring

theorem Gamma_three_halves : Real.Gamma (3 / 2) = √Real.pi / 2 := by
  have h := Real.Gamma_add_one (s := 1 / 2) (by norm_num)
  rw [show (1:ℝ) / 2 + 1 = 3 / 2 by norm_num, Real.Gamma_one_half_eq] at h
  rw [h]; ring

end Mpsci.nakD
