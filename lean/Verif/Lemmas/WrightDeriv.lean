import Verif.Lemmas.BesselR
import Mathlib.Analysis.Calculus.SmoothSeries

/-! Derivatives of Wright's function with `ρ = 1` and of the Bessel functions of orders 0 and 1. -/

namespace Mpsci

open Classical Filter Topology Set

theorem hasDerivAt_wright (β z : ℝ) : HasDerivAt (wrightR 1 β) (wrightR 1 (β + 1) z) z := by
  set R := |z| + 1 with hR
  have hR0 : 0 < R := by positivity
  have hs : Summable fun k : ℕ => ‖(k:ℝ) * R ^ (k - 1) / (k.factorial * Real.Gamma (k + β))‖ := by
    refine (summable_nat_add_iff 1).1 ((hasSum_w (β + 1) R).summable.norm.congr fun k => ?_)
    congr 1
    have hk : ((k:ℝ) + 1) ≠ 0 := by positivity
    rw [Nat.add_sub_cancel, Nat.factorial_succ, show ((k + 1 : ℕ) : ℝ) + β = k + (β + 1) by push_cast; ring]
    push_cast
    rw [mul_assoc ((k:ℝ) + 1), mul_div_mul_left _ _ hk]
  have hd := hasDerivAt_tsum_of_isPreconnected (u := fun k : ℕ => ‖(k:ℝ) * R ^ (k - 1) / (k.factorial * Real.Gamma (k + β))‖)
    (g := fun (k : ℕ) (t : ℝ) => t ^ k / (k.factorial * Real.Gamma (k + β))) (g' := fun (k : ℕ) (t : ℝ) => (k:ℝ) * t ^ (k - 1) / (k.factorial * Real.Gamma (k + β)))
    (t := Ioo (-R) R) (y₀ := 0) (y := z) hs isOpen_Ioo isPreconnected_Ioo (fun k t _ => (hasDerivAt_pow k t).div_const _) (fun k t ht => ?_)
    ⟨by linarith, hR0⟩ (hasSum_w β 0).summable ⟨by have := neg_abs_le z; linarith, by have := le_abs_self z; linarith⟩
  · have e1 : (fun t : ℝ => ∑' k : ℕ, t ^ k / (k.factorial * Real.Gamma (k + β))) = wrightR 1 β := by
      funext t; exact (hasSum_w β t).tsum_eq
    have e2 : ∑' k : ℕ, (k:ℝ) * z ^ (k - 1) / (k.factorial * Real.Gamma (k + β)) = wrightR 1 (β + 1) z := by
      refine HasSum.tsum_eq ((hasSum_nat_add_iff' 1).1 ?_)
      simp only [Finset.range_one, Finset.sum_singleton, Nat.cast_zero, zero_mul, zero_div, sub_zero]
      refine (hasSum_w (β + 1) z).congr_fun' fun k => ?_
      have hk : ((k:ℝ) + 1) ≠ 0 := by positivity
      rw [Nat.add_sub_cancel, Nat.factorial_succ, show ((k + 1 : ℕ) : ℝ) + β = k + (β + 1) by push_cast; ring]
      push_cast
      rw [mul_assoc ((k:ℝ) + 1), mul_div_mul_left _ _ hk]
    rw [e1, e2] at hd
    exact hd
  · simp only [norm_div, norm_mul, norm_pow]
    gcongr
    rw [Real.norm_eq_abs, Real.norm_of_nonneg hR0.le]
    exact (abs_lt.2 ht).le

theorem continuous_wright (β : ℝ) : Continuous (wrightR 1 β) := continuous_iff_continuousAt.2 fun z => (hasDerivAt_wright β z).continuousAt

theorem wright_zero (β : ℝ) : wrightR 1 β 0 = 1 / Real.Gamma β := by
  rw [wrightR, tsum_eq_single 0 fun k hk => by simp [hk]]; simp

theorem wright_pos {β z : ℝ} (hβ : 0 < β) (hz : 0 ≤ z) : 0 < wrightR 1 β z := by
  have h := hasSum_w β z
  have hG : ∀ k : ℕ, 0 < Real.Gamma (k + β) := fun k => Real.Gamma_pos_of_pos (by positivity)
  refine lt_of_lt_of_le ?_ (le_hasSum h 0 fun k _ => div_nonneg (by positivity) (mul_nonneg (by positivity) (hG k).le))
  have := hG 0
  simp only [pow_zero, Nat.factorial_zero, Nat.cast_one, one_mul]
  positivity

end Mpsci
