import Verif.Base.BesselR
import Verif.Lemmas.InvGaussDist
import Mathlib.Analysis.SpecialFunctions.Gamma.BohrMollerup
import Mathlib.Analysis.SpecialFunctions.Gamma.Beta
import Mathlib.Analysis.SpecialFunctions.Trigonometric.Series
import Mathlib.Analysis.SpecificLimits.Normed
import Mathlib.Analysis.SpecialFunctions.Pow.Asymptotics

/-! Series and recurrences of the Bessel functions of real order. -/

namespace Mpsci

open Classical Set Filter Topology MeasureTheory

/-! ### Convergence -/

theorem abs_inv_Gamma_le (y : ℝ) (hy : y < 1) : |1 / Real.Gamma y| ≤ Real.Gamma (1 - y) := by
  have hg : 0 < Real.Gamma (1 - y) := Real.Gamma_pos_of_pos (by linarith)
  have h := Real.Gamma_mul_Gamma_one_sub y
  by_cases hs : Real.sin (Real.pi * y) = 0
  · rw [hs, div_zero] at h
    rw [(mul_eq_zero.1 h).resolve_right hg.ne', div_zero, abs_zero]; exact hg.le
  · have h1 : 1 / Real.Gamma y = Real.Gamma (1 - y) * (Real.sin (Real.pi * y) / Real.pi) := by
      have h2 : Real.Gamma y ≠ 0 := by
        intro h3; rw [h3, zero_mul] at h
        exact (div_ne_zero Real.pi_ne_zero hs) h.symm
      rw [eq_div_iff hs] at h
      rw [← mul_div_assoc, div_eq_div_iff h2 Real.pi_ne_zero]
      linarith
    rw [h1, abs_mul, abs_of_pos hg]
    refine mul_le_of_le_one_right hg.le ?_
    rw [abs_div, abs_of_pos Real.pi_pos, div_le_one Real.pi_pos]
    exact (Real.abs_sin_le_one _).trans (by linarith [Real.two_le_pi])

theorem Gamma_le_factorial_rpow {s : ℝ} (h0 : 0 ≤ s) (h1 : s ≤ 1) (k : ℕ) : Real.Gamma (1 + s * k) ≤ (k.factorial : ℝ) ^ s := by
  have hk : (0:ℝ) ≤ k := k.cast_nonneg
  have h := Real.convexOn_log_Gamma.2 (x := (k:ℝ) + 1) (y := 1) (by simp; positivity) (by simp) h0 (by linarith : 0 ≤ 1 - s) (by ring)
  simp only [Function.comp, smul_eq_mul, Real.Gamma_one, Real.log_one, mul_zero, add_zero, Real.Gamma_nat_eq_factorial, mul_one] at h
  rw [show s * ((k:ℝ) + 1) + (1 - s) = 1 + s * k by ring] at h
  have hp : 0 < Real.Gamma (1 + s * k) := Real.Gamma_pos_of_pos (by positivity)
  have hf : (0:ℝ) < k.factorial := by exact_mod_cast k.factorial_pos
  rw [← Real.log_le_log_iff hp (Real.rpow_pos_of_pos hf s), Real.log_rpow hf]
  exact h

theorem wright_bound {ρ : ℝ} (hρ : -1 < ρ) (β : ℝ) : ∃ C s : ℝ, 0 ≤ C ∧ s < 1 ∧ ∀ᶠ k : ℕ in atTop,
    |1 / Real.Gamma (ρ * k + β)| ≤ C * ((k.factorial : ℝ)) ^ s := by
  rcases lt_trichotomy ρ 0 with h | h | h
  · set s := (1 - ρ) / 2 with hs
    refine ⟨1, s, zero_le_one, by linarith, ?_⟩
    have e1 : ∀ᶠ k : ℕ in atTop, 1 + β ≤ -ρ * k :=
      (tendsto_natCast_atTop_atTop.const_mul_atTop (by linarith : 0 < -ρ)).eventually_ge_atTop _
    have e2 : ∀ᶠ k : ℕ in atTop, -β ≤ (s + ρ) * k :=
      (tendsto_natCast_atTop_atTop.const_mul_atTop (by linarith : 0 < s + ρ)).eventually_ge_atTop _
    filter_upwards [e1, e2] with k h1 h2
    rw [one_mul]
    refine (abs_inv_Gamma_le _ (by linarith)).trans (le_trans ?_ (Gamma_le_factorial_rpow (by linarith) (by linarith) k))
    exact Real.Gamma_strictMonoOn_Ici.monotoneOn (by simp only [mem_Ici]; linarith) (by simp only [mem_Ici]; linarith) (by linarith)
  · refine ⟨|1 / Real.Gamma β|, 0, abs_nonneg _, one_pos, Eventually.of_forall fun k => ?_⟩
    rw [h]; simp
  · refine ⟨1, 0, zero_le_one, one_pos, ?_⟩
    have e1 : ∀ᶠ k : ℕ in atTop, 2 - β ≤ ρ * k :=
      (tendsto_natCast_atTop_atTop.const_mul_atTop h).eventually_ge_atTop _
    filter_upwards [e1] with k h1
    have h2 : 1 ≤ Real.Gamma (ρ * k + β) := by
      rw [← Real.Gamma_two]
      exact Real.Gamma_strictMonoOn_Ici.monotoneOn (by simp) (by simp only [mem_Ici]; linarith) (by linarith)
    rw [Real.rpow_zero, mul_one, abs_of_nonneg (by positivity)]
    exact div_le_one_of_le₀ h2 (by linarith)

theorem summable_pow_div_factorial {t : ℝ} (ht : 0 < t) {c : ℝ} (hc : 0 < c) : Summable fun k : ℕ => c ^ k / (k.factorial : ℝ) ^ t := by
  have hf : ∀ k : ℕ, (0:ℝ) < k.factorial := fun k => by exact_mod_cast k.factorial_pos
  refine summable_of_ratio_test_tendsto_lt_one (l := 0) one_pos (Eventually.of_forall fun k => (div_pos (pow_pos hc k) (Real.rpow_pos_of_pos (hf k) t)).ne') ?_
  have e : ∀ k : ℕ, ‖c ^ (k + 1) / ((k + 1).factorial : ℝ) ^ t‖ / ‖c ^ k / (k.factorial : ℝ) ^ t‖ = c * ((k:ℝ) + 1) ^ (-t) := fun k => by
    have h1 := Real.rpow_pos_of_pos (hf k) t
    have h2 : (0:ℝ) < (k:ℝ) + 1 := by positivity
    have h3 := Real.rpow_pos_of_pos h2 t
    rw [Real.norm_of_nonneg (by positivity), Real.norm_of_nonneg (by positivity), Nat.factorial_succ, Nat.cast_mul, Nat.cast_succ,
      Real.mul_rpow h2.le (hf k).le, Real.rpow_neg h2.le, pow_succ]
    field_simp
  simp only [e]
  have : Tendsto (fun k : ℕ => ((k:ℝ) + 1) ^ (-t)) atTop (𝓝 0) :=
    (tendsto_rpow_neg_atTop ht).comp (tendsto_atTop_add_const_right _ 1 tendsto_natCast_atTop_atTop)
  simpa using this.const_mul c

/-- Wright's series converges for every `ρ > -1`. -/
theorem summable_wright {ρ : ℝ} (hρ : -1 < ρ) (β z : ℝ) : Summable fun k : ℕ => z ^ k / (k.factorial * Real.Gamma (ρ * k + β)) := by
  obtain ⟨C, s, hC, hs, h⟩ := wright_bound hρ β
  refine Summable.of_norm_bounded_eventually_nat (g := fun k => C * ((|z| + 1) ^ k / (k.factorial : ℝ) ^ (1 - s)))
    ((summable_pow_div_factorial (by linarith) (by positivity)).mul_left C) ?_
  filter_upwards [h] with k hk
  have hf : (0:ℝ) < k.factorial := by exact_mod_cast k.factorial_pos
  have h1 := Real.rpow_pos_of_pos hf s
  rw [Real.rpow_sub hf, Real.rpow_one, show z ^ k / (k.factorial * Real.Gamma (ρ * k + β)) = z ^ k / k.factorial * (1 / Real.Gamma (ρ * k + β)) by
    rw [div_mul_div_comm, mul_one], Real.norm_eq_abs, abs_mul, abs_div, abs_pow, abs_of_pos hf]
  calc |z| ^ k / k.factorial * |1 / Real.Gamma (ρ * k + β)| ≤ (|z| + 1) ^ k / k.factorial * (C * (k.factorial : ℝ) ^ s) := by
        gcongr; linarith
    _ = C * ((|z| + 1) ^ k / (k.factorial / (k.factorial : ℝ) ^ s)) := by field_simp

/-! ### The case `ρ = 1` -/

theorem hasSum_w (β z : ℝ) : HasSum (fun k : ℕ => z ^ k / (k.factorial * Real.Gamma (k + β))) (wrightR 1 β z) := by
  have := (summable_wright (ρ := 1) (by norm_num) β z).hasSum
  simpa only [one_mul, wrightR] using this

theorem inv_Gamma_rec (s : ℝ) : 1 / Real.Gamma s = s / Real.Gamma (s + 1) := by
  by_cases h : s = 0
  · rw [h, zero_add, Real.Gamma_zero]; simp
  · rw [Real.Gamma_add_one h]
    by_cases hg : Real.Gamma s = 0
    · rw [hg]; simp
    · field_simp

theorem _root_.HasSum.congr_fun' {f g : ℕ → ℝ} {a : ℝ} (h : HasSum f a) (e : ∀ k, g k = f k) : HasSum g a := by
  rw [show g = f from funext e]; exact h

theorem w_rec (β z : ℝ) : wrightR 1 β z = β * wrightR 1 (β + 1) z + z * wrightR 1 (β + 2) z := by
  have h1 := (hasSum_w (β + 1) z).mul_left β
  have h2 := (hasSum_w (β + 2) z).mul_left z
  have h3 : HasSum (fun k : ℕ => (k:ℝ) * (z ^ k / (k.factorial * Real.Gamma (k + (β + 1))))) (z * wrightR 1 (β + 2) z) := by
    refine (hasSum_nat_add_iff' 1).1 ?_
    simp only [Finset.range_one, Finset.sum_singleton, Nat.cast_zero, zero_mul, sub_zero]
    refine h2.congr_fun' fun k => ?_
    have hf : (0:ℝ) < k.factorial := by exact_mod_cast k.factorial_pos
    rw [Nat.factorial_succ, pow_succ, show ((k + 1 : ℕ) : ℝ) + (β + 1) = k + (β + 2) by push_cast; ring]
    by_cases hg : Real.Gamma (k + (β + 2)) = 0
    · rw [hg]; simp
    · push_cast; field_simp
  refine (hasSum_w β z).unique ?_
  refine (h1.add h3).congr_fun' fun k => ?_
  have e := inv_Gamma_rec (k + β)
  rw [show z ^ k / (k.factorial * Real.Gamma (k + β)) = z ^ k / k.factorial * (1 / Real.Gamma (k + β)) by rw [div_mul_div_comm, mul_one], e,
    show (k:ℝ) + β + 1 = k + (β + 1) by ring]
  by_cases hg : Real.Gamma (k + (β + 1)) = 0
  · rw [hg]; simp
  · field_simp; ring

variable {x : ℝ}

theorem besselIR_eq (ν : ℝ) (hx : 0 < x) : besselIR ν x = (x / 2) ^ ν * wrightR 1 (ν + 1) ((x / 2) ^ 2) := by
  rw [besselIR, wrightR, ← tsum_mul_left]
  refine tsum_congr fun k => ?_
  have h : 0 < x / 2 := by positivity
  rw [Real.rpow_add h, ← Nat.cast_two, ← Nat.cast_mul, Real.rpow_natCast, pow_mul, one_mul, add_assoc]
  ring

theorem besselJR_eq (ν : ℝ) (hx : 0 < x) : besselJR ν x = (x / 2) ^ ν * wrightR 1 (ν + 1) (-(x / 2) ^ 2) := by
  rw [besselJR, wrightR, ← tsum_mul_left]
  refine tsum_congr fun k => ?_
  have h : 0 < x / 2 := by positivity
  rw [Real.rpow_add h, ← Nat.cast_two, ← Nat.cast_mul, Real.rpow_natCast, pow_mul, one_mul, add_assoc, neg_pow ((x / ((2:ℕ):ℝ)) ^ 2)]
  ring

theorem besselIR_rec (ν : ℝ) (hx : 0 < x) : besselIR (ν - 1) x - besselIR (ν + 1) x = 2 * ν / x * besselIR ν x := by
  have h : 0 < x / 2 := by positivity
  rw [besselIR_eq _ hx, besselIR_eq _ hx, besselIR_eq _ hx, sub_add_cancel, w_rec ν, show ν + 1 + 1 = ν + 2 by ring,
    Real.rpow_sub_one h.ne', Real.rpow_add_one h.ne']
  field_simp; ring

theorem besselJR_rec (ν : ℝ) (hx : 0 < x) : besselJR (ν - 1) x + besselJR (ν + 1) x = 2 * ν / x * besselJR ν x := by
  have h : 0 < x / 2 := by positivity
  rw [besselJR_eq _ hx, besselJR_eq _ hx, besselJR_eq _ hx, sub_add_cancel, w_rec ν, show ν + 1 + 1 = ν + 2 by ring,
    Real.rpow_sub_one h.ne', Real.rpow_add_one h.ne']
  field_simp; ring

theorem besselYR_rec {ν : ℝ} (hx : 0 < x) (hν : Real.sin (ν * Real.pi) ≠ 0) : besselYR (ν - 1) x + besselYR (ν + 1) x = 2 * ν / x * besselYR ν x := by
  have e1 : Real.sin ((ν - 1) * Real.pi) = -Real.sin (ν * Real.pi) := by rw [sub_mul, one_mul, Real.sin_sub_pi]
  have e2 : Real.sin ((ν + 1) * Real.pi) = -Real.sin (ν * Real.pi) := by rw [add_mul, one_mul, Real.sin_add_pi]
  have e3 : Real.cos ((ν - 1) * Real.pi) = -Real.cos (ν * Real.pi) := by rw [sub_mul, one_mul, Real.cos_sub_pi]
  have e4 : Real.cos ((ν + 1) * Real.pi) = -Real.cos (ν * Real.pi) := by rw [add_mul, one_mul, Real.cos_add_pi]
  have h1 := besselJR_rec ν hx
  have h2 := besselJR_rec (-ν) hx
  rw [besselYR, besselYR, besselYR, e1, e2, e3, e4, show -(ν - 1) = -ν + 1 by ring, show -(ν + 1) = -ν - 1 by ring]
  have h3 : besselJR (ν - 1) x = 2 * ν / x * besselJR ν x - besselJR (ν + 1) x := by linarith
  have h4 : besselJR (-ν - 1) x = 2 * -ν / x * besselJR (-ν) x - besselJR (-ν + 1) x := by linarith
  rw [h3, h4]
  field_simp; ring

/-! ### Half-integer orders -/

theorem factorial_mul_Gamma (k : ℕ) : (k.factorial : ℝ) * Real.Gamma (k + 3 / 2) = (2 * k + 1).factorial * √Real.pi / 2 ^ (2 * k + 1) := by
  have h := Real.Gamma_mul_Gamma_add_half_of_pos (s := k + 1) (by positivity)
  rw [Real.Gamma_nat_eq_factorial, show 2 * ((k:ℝ) + 1) = ((2 * k + 1 : ℕ) : ℝ) + 1 by push_cast; ring, Real.Gamma_nat_eq_factorial,
    show (1:ℝ) - (((2 * k + 1 : ℕ) : ℝ) + 1) = -((2 * k + 1 : ℕ) : ℝ) by ring, Real.rpow_neg zero_le_two, Real.rpow_natCast,
    show (k:ℝ) + 1 + 1 / 2 = k + 3 / 2 by ring] at h
  rw [h]; ring

theorem factorial_mul_Gamma' (k : ℕ) : (k.factorial : ℝ) * Real.Gamma (k + 1 / 2) = (2 * k).factorial * √Real.pi / 2 ^ (2 * k) := by
  have h := factorial_mul_Gamma k
  have h2 : Real.Gamma ((k:ℝ) + 3 / 2) = (k + 1 / 2) * Real.Gamma (k + 1 / 2) := by
    rw [← Real.Gamma_add_one (by positivity)]; congr 1; ring
  rw [h2, Nat.factorial_succ] at h
  push_cast at h
  have : ((k:ℝ) + 1 / 2) ≠ 0 := by positivity
  apply mul_left_cancel₀ this
  rw [show ((k:ℝ) + 1 / 2) * (k.factorial * Real.Gamma (k + 1 / 2)) = k.factorial * ((k + 1 / 2) * Real.Gamma (k + 1 / 2)) by ring, h, pow_succ]
  field_simp

theorem sqrt_half (hx : 0 < x) : √(Real.pi / (2 * x)) * (x / 2) ^ (1 / 2 : ℝ) = √Real.pi / 2 := by
  rw [← Real.sqrt_eq_rpow, ← Real.sqrt_mul (by have := Real.pi_pos; positivity), show Real.pi / (2 * x) * (x / 2) = Real.pi / 2 ^ 2 by field_simp,
    Real.sqrt_div Real.pi_pos.le, Real.sqrt_sq zero_le_two]

theorem sqrt_half' (hx : 0 < x) : √(Real.pi / (2 * x)) * (x / 2) ^ (-1 / 2 : ℝ) = √Real.pi / x := by
  have h := sqrt_half hx
  have h2 : (x / 2) ^ (-1 / 2 : ℝ) = (x / 2) ^ (1 / 2 : ℝ) / (x / 2) := by
    rw [← Real.rpow_sub_one (by positivity)]; norm_num
  rw [h2, ← mul_div_assoc, h]; field_simp

theorem half_term (hx : 0 < x) (k : ℕ) (c : ℝ) : √Real.pi / 2 * (c * ((x / 2) ^ 2) ^ k / (k.factorial * Real.Gamma (1 * k + (1 / 2 + 1)))) =
    c * (x ^ (2 * k + 1) / (2 * k + 1).factorial) / x := by
  have hs : 0 < √Real.pi := Real.sqrt_pos.2 Real.pi_pos
  have hf : (0:ℝ) < (2 * k + 1).factorial := by exact_mod_cast (2 * k + 1).factorial_pos
  rw [show 1 * (k:ℝ) + (1 / 2 + 1) = k + 3 / 2 by ring, factorial_mul_Gamma, ← pow_mul, div_pow, pow_succ, pow_succ]
  field_simp

theorem half_term' (hx : 0 < x) (k : ℕ) (c : ℝ) : √Real.pi / x * (c * ((x / 2) ^ 2) ^ k / (k.factorial * Real.Gamma (1 * k + (-1 / 2 + 1)))) =
    c * (x ^ (2 * k) / (2 * k).factorial) / x := by
  have hs : 0 < √Real.pi := Real.sqrt_pos.2 Real.pi_pos
  have hf : (0:ℝ) < (2 * k).factorial := by exact_mod_cast (2 * k).factorial_pos
  rw [show 1 * (k:ℝ) + (-1 / 2 + 1) = k + 1 / 2 by ring, factorial_mul_Gamma', ← pow_mul, div_pow]
  field_simp

theorem besselIR_half (hx : 0 < x) : √(Real.pi / (2 * x)) * besselIR (1 / 2) x = Real.sinh x / x := by
  rw [besselIR_eq _ hx, ← mul_assoc, sqrt_half hx, wrightR, ← tsum_mul_left]
  have h := (Real.hasSum_sinh x).div_const x
  rw [← h.tsum_eq]
  refine tsum_congr fun k => ?_
  simpa only [one_mul] using half_term hx k 1

theorem besselIR_neg_half (hx : 0 < x) : √(Real.pi / (2 * x)) * besselIR (-1 / 2) x = Real.cosh x / x := by
  rw [besselIR_eq _ hx, ← mul_assoc, sqrt_half' hx, wrightR, ← tsum_mul_left]
  have h := (Real.hasSum_cosh x).div_const x
  rw [← h.tsum_eq]
  refine tsum_congr fun k => ?_
  simpa only [one_mul] using half_term' hx k 1

theorem besselJR_half (hx : 0 < x) : √(Real.pi / (2 * x)) * besselJR (1 / 2) x = Real.sin x / x := by
  rw [besselJR_eq _ hx, ← mul_assoc, sqrt_half hx, wrightR, ← tsum_mul_left]
  have h := (Real.hasSum_sin x).div_const x
  rw [← h.tsum_eq]
  refine tsum_congr fun k => ?_
  rw [neg_pow, half_term hx k ((-1) ^ k), ← mul_div_assoc ((-1 : ℝ) ^ k)]

theorem besselJR_neg_half (hx : 0 < x) : √(Real.pi / (2 * x)) * besselJR (-1 / 2) x = Real.cos x / x := by
  rw [besselJR_eq _ hx, ← mul_assoc, sqrt_half' hx, wrightR, ← tsum_mul_left]
  have h := (Real.hasSum_cos x).div_const x
  rw [← h.tsum_eq]
  refine tsum_congr fun k => ?_
  rw [neg_pow, half_term' hx k ((-1) ^ k), ← mul_div_assoc ((-1 : ℝ) ^ k)]

end Mpsci
