import Verif.Lemmas.Fun.Marcum
import Verif.Lemmas.Helpers
import Verif.Lemmas.WrightDeriv
import Verif.Model.Dist.Noncentral

/-! Evaluation of the model of `ncx2`: twice a noncentral gamma variable with shape `k/2` and parameter `lam/2`. -/

namespace Mpsci.mq

open Classical Num Filter Topology MeasureTheory Set

variable {m a : ℝ}

theorem cmarcumq_pinf (hm : 0 < m) (ha : 0 < a) : fun_.cmarcumq (fin m) (fin a) pinf = .ok 1 := by
  simp only [fun_.cmarcumq, zero_def, fin_eq, ha.ne', if_false, pinf_eq_fin, false_and]
  rw [mp.quad_pinf (F := f m a) (fun t h1 => integrand_eval ha h1) (isDist hm a).integrable.integrableOn, (isDist hm a).integral_Ioi, F_nonpos le_rfl, sub_zero]
  rfl
theorem marcumq_pinf (ha : 0 < a) : fun_.marcumq (fin m) (fin a) pinf = .ok 0 := by
  simp only [fun_.marcumq, zero_def, fin_eq, ha.ne', if_false, pinf_eq_fin, false_and]
  rfl

end Mpsci.mq

namespace Mpsci.ncx2

open Classical Num Spec Filter Topology MeasureTheory Set

variable {k l x : ℝ}

theorem two_ne : (2:ℝ) ≠ 0 := two_ne_zero

noncomputable def F (k l x : ℝ) : ℝ := ncg.C (k / 2) (l / 2) (x / 2)
noncomputable def f (k l x : ℝ) : ℝ := ncg.p (k / 2) (l / 2) (x / 2) / 2

/-- The left end of the support, where the density does not vanish for `k ≤ 2`. -/
def E (k : ℝ) : Set ℝ := {x | x = 0 ∧ k ≤ 2}
theorem E_finite : (E k).Finite := Set.Finite.subset (toFinite {0}) fun _ h => h.1

theorem isDist (hk : 0 < k) (hl : 0 ≤ l) : IsDist (F k l) (f k l) := (ncg.isDist (half_pos hk) (div_nonneg hl zero_le_two)).scale two_pos

theorem F_nonpos (h : x ≤ 0) : F k l x = 0 := ncg.C_nonpos (by linarith)
theorem f_nonpos (h : x ≤ 0) : f k l x = 0 := by rw [f, ncg.p_nonpos (by linarith), zero_div]
theorem f_pos (hk : 0 < k) (hl : 0 ≤ l) (hx : 0 < x) : 0 < f k l x :=
  half_pos (ncg.p_pos (half_pos hk) (div_nonneg hl zero_le_two) (half_pos hx))

theorem mq_eq (hl : 0 ≤ l) (hx : 0 < x) : mq.F (k / 2) (√l) (√x) = F k l x := by
  rw [mq.F_pos (Real.sqrt_pos.2 hx), Real.sq_sqrt hl, Real.sq_sqrt hx.le, F]

theorem cdf_eval (hk : 0 < k) (hl : 0 ≤ l) (x : ℝ) : cdf (fin x) (fin k) (fin l) = .ok (fin (F k l x)) := by
  rcases le_or_gt x 0 with h | h
  · simp [cdf, h, F_nonpos h]
  · simp only [cdf, zero_def, fin_le, h.not_ge, if_false, ofNat_def, Nat.cast_ofNat, fin_div _ two_ne, ok_bind, mp.sqrt_nonneg hl, mp.sqrt_nonneg h.le,
      mq.cmarcumq_eval (half_pos hk) (Real.sqrt_nonneg l) (Real.sqrt_nonneg x), mq_eq hl h]
theorem sf_eval (hk : 0 < k) (hl : 0 ≤ l) (x : ℝ) : sf (fin x) (fin k) (fin l) = .ok (fin (1 - F k l x)) := by
  rcases le_or_gt x 0 with h | h
  · simp [sf, h, F_nonpos h]
  · simp only [sf, zero_def, fin_le, h.not_ge, if_false, ofNat_def, Nat.cast_ofNat, fin_div _ two_ne, ok_bind, mp.sqrt_nonneg hl, mp.sqrt_nonneg h.le,
      mq.marcumq_eval (half_pos hk) (Real.sqrt_nonneg l) (Real.sqrt_nonneg x), mq_eq hl h]

theorem pdf_neg (k l : Num) (h : x < 0) : pdf (fin x) k l = .ok (fin 0) := by simp [pdf, h]
theorem pdf_pos (hl : 0 < l) (h : 0 < x) : pdf (fin x) (fin k) (fin l) = .ok (fin (f k l x)) := by
  have hxl : 0 < x / l := by positivity
  have hlx : 0 < l * x := by positivity
  have hs : 0 < √(l * x) := Real.sqrt_pos.2 hlx
  simp only [pdf, zero_def, one_def, fin_lt, h.not_gt, if_false, ofNat_def, Nat.cast_ofNat, fin_div _ two_ne, ok_bind, fin_sub, fin_add, neg_fin, fin_mul,
    mp.exp_fin, fin_div _ hl.ne', mp.power_pos hxl, mp.sqrt_nonneg hlx.le, mp.besseliR_pos _ hs]
  rw [f, ncg.p_pos' (half_pos h), besselIR_eq _ hs, sub_add_cancel, div_pow, Real.sq_sqrt hlx.le, show l / 2 * (x / 2) = l * x / 2 ^ 2 by ring,
    show -(l / 2) - x / 2 = -(x + l) / 2 by ring]
  have e : (x / 2) ^ (k / 2 - 1) = (x / l) ^ ((k / 2 - 1) / 2) * (√(l * x) / 2) ^ (k / 2 - 1) := by
    have h1 : (x / l) ^ ((k / 2 - 1) / 2) = (√(x / l)) ^ (k / 2 - 1) := by
      rw [Real.sqrt_eq_rpow, ← Real.rpow_mul hxl.le]; congr 1; ring
    rw [h1, ← Real.mul_rpow (by positivity) (by positivity), ← mul_div_assoc, ← Real.sqrt_mul hxl.le, show x / l * (l * x) = x ^ 2 by field_simp,
      Real.sqrt_sq h.le]
  rw [e]; congr 2; ring
theorem pdf_zero (hk : 2 < k) (hl : 0 < l) : pdf (fin 0) (fin k) (fin l) = .ok (fin 0) := by
  have h1 : 0 < k / 2 - 1 := by linarith
  simp only [pdf, zero_def, one_def, fin_lt, lt_irrefl, if_false, ofNat_def, Nat.cast_ofNat, fin_div _ two_ne, ok_bind, fin_sub, fin_add, neg_fin, fin_mul,
    mp.exp_fin, fin_div _ hl.ne', zero_div, mul_zero, mp.power_zero_pos (half_pos h1), mp.sqrt_nonneg le_rfl, Real.sqrt_zero, mp.besseliR, h1.ne', h1, if_true]
theorem pdf_zero_two (hl : 0 < l) : pdf (fin 0) 2 (fin l) = .ok (fin (Real.exp (-l / 2) / 2)) := by
  simp only [pdf, zero_def, one_def, fin_lt, lt_irrefl, if_false, ofNat_def, Nat.cast_ofNat, fin_div _ two_ne, ok_bind, fin_sub, fin_add, neg_fin, fin_mul,
    mp.exp_fin, fin_div _ hl.ne', zero_div, mul_zero, div_self two_ne, sub_self, mp.power_zero_zero, mp.sqrt_nonneg le_rfl, Real.sqrt_zero, mp.besseliR,
    if_true, zero_add, mul_one]
theorem pdf_eval (hl : 0 < l) (hx : x ∉ E k) : pdf (fin x) (fin k) (fin l) = .ok (fin (f k l x)) := by
  rcases lt_trichotomy x 0 with h | rfl | h
  · rw [pdf_neg _ _ h, f_nonpos h.le]
  · rw [f_nonpos le_rfl, pdf_zero (not_le.1 fun h => hx ⟨rfl, h⟩) hl]
  · exact pdf_pos hl h

theorem hasMV (hk : 0 < k) (hl : 0 ≤ l) : HasMV (f k l) (k + l) (2 * (k + 2 * l)) := by
  have h := (ncg.hasMV (half_pos hk) (div_nonneg hl zero_le_two)).scale two_pos
  rw [show 2 * (k / 2 + l / 2) = k + l by ring, show 2 ^ 2 * (k / 2 + 2 * (l / 2)) = 2 * (k + 2 * l) by ring] at h
  exact h

theorem mean_eval (k l : ℝ) : mean (fin k) (fin l) = .ok (fin (k + l)) := rfl
theorem var_eval (k l : ℝ) : var (fin k) (fin l) = .ok (fin (2 * (k + 2 * l))) := by simp [var, ofNat_def]

/-- the limit of the density at 0 for two degrees of freedom -/
theorem tendsto_f_two (l : ℝ) : Tendsto (f 2 l) (𝓝[>] 0) (𝓝 (Real.exp (-l / 2) / 2)) := by
  have h : ContinuousAt (fun x : ℝ => Real.exp (-(l / 2) - x / 2) * wrightR 1 1 (l / 2 * (x / 2)) / 2) 0 := by
    refine Continuous.continuousAt ?_
    have := continuous_wright 1
    fun_prop
  have h2 := h.tendsto.mono_left (nhdsWithin_le_nhds (s := Ioi (0:ℝ)))
  simp only [zero_div, mul_zero, sub_zero, wright_zero, Real.Gamma_one, mul_one, div_one] at h2
  rw [neg_div]
  refine h2.congr' ?_
  filter_upwards [self_mem_nhdsWithin] with x hx
  rw [f, ncg.p_pos' (half_pos hx), div_self two_ne, sub_self, Real.rpow_zero, mul_one]

end Mpsci.ncx2
