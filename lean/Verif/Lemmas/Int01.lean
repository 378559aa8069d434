import Verif.Lemmas.Quantile
import Verif.Lemmas.GammaInt
import Mathlib.NumberTheory.ZetaValues
import Mathlib.Analysis.Real.Pi.Bounds
import Mathlib.Analysis.SpecialFunctions.Log.Deriv

/-! Integrals over `(0, 1)` of functions of `log p`, through the exponential distribution. -/

namespace Mpsci

open MeasureTheory Set Filter Topology

theorem expDist : IsDist (fun x => if x ≤ 0 then 0 else 1 - Real.exp (-x))
    (fun x => if x < 0 then 0 else Real.exp (-x)) := by
  refine isDist_Ioi (a := 0) (G := fun x => 1 - Real.exp (-x)) (fun x hx => by simp [hx])
    (fun x hx => by simp [not_le.2 hx]) (by simp) (by fun_prop) (fun x hx => by simp [hx])
    (by simp) (fun x hx => ?_) (fun x hx => by simp [not_lt.2 hx.le, (Real.exp_pos _).le]) ?_
  · simp only [not_lt.2 hx.le, if_false]
    refine (((hasDerivAt_neg x).exp).const_sub 1).congr_deriv ?_
    ring
  · simpa using Real.tendsto_exp_neg_atTop_nhds_zero.const_sub 1

theorem expDist_Q (p : ℝ) (h0 : 0 < p) (h1 : p < 1) :
    (fun x => if x ≤ 0 then 0 else 1 - Real.exp (-x)) (-Real.log (1 - p)) = p := by
  have h2 : 0 < 1 - p := by linarith
  have : Real.log (1 - p) < 0 := Real.log_neg h2 (by linarith)
  simp only [neg_neg, Real.exp_log h2, not_le.2 (neg_pos.2 this), if_false]; ring

/-- `∫₀¹ h(-log p) dp = ∫₀^∞ h(x) e^(-x) dx` -/
theorem int01_neg_log {h : ℝ → ℝ} {v : ℝ} (hm : Measurable h)
    (hi : IntegrableOn (fun x => h x * Real.exp (-x)) (Ioi 0))
    (hv : ∫ x in Ioi (0:ℝ), h x * Real.exp (-x) = v) : Int01 (fun p => h (-Real.log p)) v := by
  obtain ⟨a, b⟩ := expDist.expect expDist_Q (h := h) hm.aestronglyMeasurable
  have hz : ∀ x : ℝ, x < 0 → h x * (if x < 0 then 0 else Real.exp (-x)) = 0 := fun x hx => by simp [hx]
  have e : ∀ x ∈ Ioi (0:ℝ), h x * (if x < 0 then 0 else Real.exp (-x)) = h x * Real.exp (-x) :=
    fun x hx => by simp [not_lt.2 (le_of_lt (show 0 < x from hx))]
  have : Int01 (fun p => h (-Real.log (1 - p))) v := by
    refine ⟨a.2 (integrable_of_Ioi hz (hi.congr_fun (fun x hx => (e x hx).symm) measurableSet_Ioi)), ?_⟩
    rw [b, integral_Ioi_of_zero hz, setIntegral_congr_fun measurableSet_Ioi e, hv]
  refine this.reflect.congr fun p _ _ => ?_
  simp

theorem int01_neg_log_rpow {s : ℝ} (hs : -1 < s) :
    Int01 (fun p => (-Real.log p) ^ s) (Real.Gamma (s + 1)) := by
  have h1 := LG_integrable 0 (by linarith : 0 < s + 1)
  have h2 := LG_zero (by linarith : 0 < s + 1)
  simp only [LG, add_sub_cancel_right, pow_zero, one_mul] at h1 h2
  exact int01_neg_log (h := fun x => x ^ s) (by fun_prop) h1 h2

theorem int01_loglog (n : ℕ) : Int01 (fun p => Real.log (-Real.log p) ^ n) (LG n 1) := by
  have h1 := LG_integrable n one_pos
  have h2 : LG n 1 = ∫ t in Ioi (0:ℝ), Real.log t ^ n * Real.exp (-t) := by
    simp only [LG, sub_self, Real.rpow_zero, one_mul]
  simp only [sub_self, Real.rpow_zero, one_mul] at h1
  exact int01_neg_log (h := fun x => Real.log x ^ n) (by fun_prop) h1 h2.symm

theorem int01_log : Int01 Real.log (-1) := by
  have := (int01_neg_log_rpow (s := 1) (by norm_num)).neg
  norm_num [Real.Gamma_two] at this
  exact this

theorem int01_log_sq : Int01 (fun p => Real.log p ^ 2) 2 := by
  have := int01_neg_log_rpow (s := 2) (by norm_num)
  have e : Real.Gamma (2 + 1) = 2 := by
    rw [Real.Gamma_add_one (by norm_num), Real.Gamma_two]; norm_num
  rw [e] at this
  refine this.congr fun p _ _ => ?_
  rw [show (2:ℝ) = ((2:ℕ):ℝ) by norm_num, Real.rpow_natCast]; ring

theorem int01_log1m : Int01 (fun p => Real.log (1 - p)) (-1) := int01_log.reflect
theorem int01_log1m_sq : Int01 (fun p => Real.log (1 - p) ^ 2) 2 := int01_log_sq.reflect

/-- `∫₀¹ -p^n log p dp = 1/(n+1)²` -/
theorem int01_pow_neg_log (n : ℕ) : Int01 (fun p => p ^ n * -Real.log p) (1 / ((n:ℝ) + 1) ^ 2) := by
  have h := int01_neg_log (h := fun x => Real.exp (-(n * x)) * x) (v := 1 / ((n:ℝ) + 1) ^ 2)
    (by fun_prop) ?_ ?_
  · refine h.congr fun p h0 _ => ?_
    rw [mul_neg (n:ℝ), neg_neg, ← Real.log_pow, Real.exp_log (by positivity)]
  · have := integrableOn_rpow_mul_exp_neg_mul_rpow (s := 1) (p := 1) (b := (n:ℝ) + 1) (by norm_num) (by norm_num)
      (by positivity)
    refine this.congr_fun (fun x _ => ?_) measurableSet_Ioi
    simp only [Real.rpow_one]
    rw [mul_right_comm, ← Real.exp_add]; ring_nf
  · have := Real.integral_rpow_mul_exp_neg_mul_Ioi (a := 2) (r := (n:ℝ) + 1) (by norm_num) (by positivity)
    rw [Real.Gamma_two, mul_one, show (2:ℝ) = ((2:ℕ):ℝ) by norm_num, Real.rpow_natCast, div_pow, one_pow] at this
    rw [← this]
    refine setIntegral_congr_fun measurableSet_Ioi fun x _ => ?_
    rw [mul_right_comm, ← Real.exp_add]; norm_num; ring_nf

/-- `∫₀¹ log p log(1-p) dp = 2 - π²/6` -/
theorem int01_log_mul_log1m : Int01 (fun p => Real.log p * Real.log (1 - p)) (2 - Real.pi ^ 2 / 6) := by
  have hF : ∀ n : ℕ, IntegrableOn (fun p : ℝ => p ^ (n + 1) * -Real.log p / ((n:ℝ) + 1)) (Ioo 0 1) :=
    fun n => (int01_pow_neg_log (n + 1)).1.div_const _
  have hI : ∀ n : ℕ, ∫ p in Ioo (0:ℝ) 1, p ^ (n + 1) * -Real.log p / ((n:ℝ) + 1) =
      1 / (((n:ℝ) + 1) * ((n:ℝ) + 2) ^ 2) := fun n => by
    rw [integral_div, (int01_pow_neg_log (n + 1)).2]; push_cast
    rw [div_div, mul_comm]; ring_nf
  have hN : ∀ n : ℕ, ∫ p in Ioo (0:ℝ) 1, ‖p ^ (n + 1) * -Real.log p / ((n:ℝ) + 1)‖ =
      1 / (((n:ℝ) + 1) * ((n:ℝ) + 2) ^ 2) := fun n => by
    rw [← hI n]
    refine setIntegral_congr_fun measurableSet_Ioo fun p hp => ?_
    have : Real.log p ≤ 0 := Real.log_nonpos hp.1.le hp.2.le
    have h3 : 0 ≤ p ^ (n + 1) * -Real.log p := mul_nonneg (pow_nonneg hp.1.le _) (by linarith)
    exact Real.norm_of_nonneg (by positivity)
  have hz := hasSum_zeta_two
  have hs : HasSum (fun n : ℕ => 1 / (((n:ℝ) + 1) * ((n:ℝ) + 2) ^ 2)) (2 - Real.pi ^ 2 / 6) := by
    have h2 : HasSum (fun n : ℕ => 1 / ((n:ℝ) + 2) ^ 2) (Real.pi ^ 2 / 6 - 1) := by
      have := (hasSum_nat_add_iff' 2).2 hz
      simpa [Finset.sum_range_succ] using this
    have h3 : HasSum (fun n : ℕ => 1 / ((n:ℝ) + 1) - 1 / ((n:ℝ) + 2)) 1 := by
      rw [hasSum_iff_tendsto_nat_of_nonneg]
      · have e : ∀ n : ℕ, ∑ i ∈ Finset.range n, (1 / ((i:ℝ) + 1) - 1 / ((i:ℝ) + 2)) =
            1 - 1 / ((n:ℝ) + 1) := fun n => by
          induction n with
          | zero => simp
          | succ n ih => rw [Finset.sum_range_succ, ih]; push_cast; ring
        simp only [e]
        simpa using (tendsto_one_div_add_atTop_nhds_zero_nat (𝕜 := ℝ)).const_sub 1
      · intro n
        have : 1 / ((n:ℝ) + 2) ≤ 1 / ((n:ℝ) + 1) := one_div_le_one_div_of_le (by positivity) (by linarith)
        simpa using this
    have := h3.sub h2
    have e : 1 - (Real.pi ^ 2 / 6 - 1) = 2 - Real.pi ^ 2 / 6 := by ring
    rw [e] at this
    have e2 : (fun n : ℕ => 1 / (((n:ℝ) + 1) * ((n:ℝ) + 2) ^ 2)) =
        fun n : ℕ => 1 / ((n:ℝ) + 1) - 1 / ((n:ℝ) + 2) - 1 / ((n:ℝ) + 2) ^ 2 := ?_
    · rw [e2]; exact this
    funext n
    have h5 : (n:ℝ) + 1 ≠ 0 := by positivity
    have h6 : (n:ℝ) + 2 ≠ 0 := by positivity
    field_simp; ring
  have key := hasSum_integral_of_summable_integral_norm (μ := volume.restrict (Ioo (0:ℝ) 1)) hF
    (by simp only [hN]; exact hs.summable)
  simp only [hI] at key
  have e : ∀ p ∈ Ioo (0:ℝ) 1, ∑' n : ℕ, p ^ (n + 1) * -Real.log p / ((n:ℝ) + 1) =
      Real.log p * Real.log (1 - p) := fun p hp => by
    have h := Real.hasSum_pow_div_log_of_abs_lt_one (x := p) (by rw [abs_of_pos hp.1]; exact hp.2)
    have h2 := h.mul_right (-Real.log p)
    rw [← neg_mul_neg, mul_comm, ← h2.tsum_eq]
    congr 1; funext n; ring
  rw [setIntegral_congr_fun measurableSet_Ioo e] at key
  refine ⟨?_, key.unique hs⟩
  by_contra hni
  have h0 := integral_undef hni
  have h1 := key.unique hs
  rw [h0] at h1
  have := Real.pi_lt_d2
  have := Real.pi_pos
  nlinarith

end Mpsci
