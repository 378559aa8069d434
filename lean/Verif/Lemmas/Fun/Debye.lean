import Verif.Lemmas.BesselR
import Mathlib.Analysis.Real.Pi.Bounds
import Mathlib.Analysis.Normed.Group.Tannery
import Mathlib.NumberTheory.Bernoulli
import Mathlib.NumberTheory.ZetaValues
import Mathlib.Analysis.Normed.Ring.InfiniteSum
import Mathlib.MeasureTheory.Integral.DominatedConvergence
import Mathlib.Analysis.SpecialFunctions.Integrals.Basic

/-! The expansion of `t/(e^t - 1)` in Bernoulli numbers and its termwise integral. -/

namespace Mpsci.dby

open Filter Topology Set MeasureTheory


noncomputable def B (k : ℕ) : ℝ := ((bernoulli k : ℚ) : ℝ) / k.factorial

theorem B_zero : B 0 = 1 := by simp [B]
theorem B_one : B 1 = -1 / 2 := by simp [B]
theorem B_odd {k : ℕ} (hk : k ≠ 0) : B (2 * k + 1) = 0 := by
  rw [B, bernoulli_eq_zero_of_odd ⟨k, rfl⟩ (by omega)]; simp

theorem abs_B_even (k : ℕ) : |B (2 * k)| ≤ 4 / (2 * Real.pi) ^ (2 * k) := by
  rcases Nat.eq_zero_or_pos k with rfl | hk
  · simp [B_zero]
  have h := hasSum_zeta_nat hk.ne'
  have hle : ((-1) ^ (k + 1) * 2 ^ (2 * k - 1) * Real.pi ^ (2 * k) * (bernoulli (2 * k) : ℚ) / (2 * k).factorial : ℝ) ≤ Real.pi ^ 2 / 6 := by
    refine hasSum_le (fun n => ?_) h hasSum_zeta_two
    rcases Nat.eq_zero_or_pos n with rfl | hn
    · simp [hk.ne']
    · have : (1:ℝ) ≤ n := by exact_mod_cast hn
      exact one_div_le_one_div_of_le (by positivity) (pow_le_pow_right₀ this (by omega))
  have hnn : 0 ≤ ((-1) ^ (k + 1) * 2 ^ (2 * k - 1) * Real.pi ^ (2 * k) * (bernoulli (2 * k) : ℚ) / (2 * k).factorial : ℝ) :=
    h.nonneg fun n => by positivity
  have e : ((-1) ^ (k + 1) * 2 ^ (2 * k - 1) * Real.pi ^ (2 * k) * (bernoulli (2 * k) : ℚ) / (2 * k).factorial : ℝ) =
      (-1) ^ (k + 1) * ((2 * Real.pi) ^ (2 * k) / 2 * B (2 * k)) := by
    rw [B, mul_pow, show 2 * k = 2 * k - 1 + 1 by omega, pow_succ (2:ℝ), show 2 * k - 1 + 1 = 2 * k by omega]; ring
  rw [e] at hle hnn
  have h2 : |(-1) ^ (k + 1) * ((2 * Real.pi) ^ (2 * k) / 2 * B (2 * k))| = (2 * Real.pi) ^ (2 * k) / 2 * |B (2 * k)| := by
    rw [abs_mul, abs_pow, abs_neg, abs_one, one_pow, one_mul, abs_mul, abs_of_pos (by have := Real.pi_pos; positivity)]
  rw [abs_of_nonneg hnn] at h2
  have h3 : Real.pi ^ 2 / 6 ≤ 2 := by
    have := Real.pi_le_four; have := Real.pi_pos
    have h4 : Real.pi < 3.15 := Real.pi_lt_d2
    nlinarith
  rw [le_div_iff₀ (by have := Real.pi_pos; positivity)]
  linarith

theorem abs_B (k : ℕ) : |B k| ≤ 4 / (2 * Real.pi) ^ k := by
  have hp := Real.pi_pos
  rcases Nat.even_or_odd' k with ⟨j, rfl | rfl⟩
  · exact abs_B_even j
  · rcases Nat.eq_zero_or_pos j with rfl | hj
    · rw [B_one, abs_div, abs_neg, abs_one, abs_two, pow_one, div_le_div_iff₀ two_pos (by positivity)]
      have := Real.pi_le_four
      nlinarith
    · rw [B_odd hj.ne', abs_zero]; positivity

theorem summable_B {r : ℝ} (h0 : 0 ≤ r) (h1 : r < 2 * Real.pi) : Summable fun k => |B k| * r ^ k := by
  have hp := Real.pi_pos
  refine Summable.of_nonneg_of_le (fun k => by positivity) (fun k => ?_)
    ((summable_geometric_of_lt_one (r := r / (2 * Real.pi)) (by positivity) ((div_lt_one (by positivity)).2 h1)).mul_left 4)
  rw [div_pow, ← mul_div_assoc]
  calc |B k| * r ^ k ≤ 4 / (2 * Real.pi) ^ k * r ^ k := mul_le_mul_of_nonneg_right (abs_B k) (by positivity)
    _ = _ := by ring

theorem hasSum_B {t : ℝ} (h1 : |t| < 2 * Real.pi) (h0 : t ≠ 0) : HasSum (fun k => B k * t ^ k) (t / (Real.exp t - 1)) := by
  have hs : Summable fun k => ‖B k * t ^ k‖ := by
    simpa [abs_mul] using summable_B (abs_nonneg t) h1
  have he : HasSum (fun k : ℕ => (1 / k.factorial - if k = 0 then 1 else 0) * t ^ k) (Real.exp t - 1) := by
    have e1 : HasSum (fun k : ℕ => t ^ k / k.factorial) (Real.exp t) := by
      rw [Real.exp_eq_exp_ℝ]; exact NormedSpace.expSeries_div_hasSum_exp t
    have e2 : HasSum (fun k : ℕ => if k = 0 then (1:ℝ) else 0) 1 := by
      simpa using hasSum_ite_eq (0:ℕ) (1:ℝ)
    refine (e1.sub e2).congr_fun' fun k => ?_
    rcases eq_or_ne k 0 with rfl | hk
    · simp
    · simp [hk]; ring
  have hes : Summable fun k : ℕ => ‖((1:ℝ) / k.factorial - if k = 0 then 1 else 0) * t ^ k‖ := he.summable.norm
  have hm := tsum_mul_tsum_eq_tsum_sum_antidiagonal_of_summable_norm hs hes
  have hp := bernoulliPowerSeries_mul_exp_sub_one ℚ
  have hc : ∀ n, ∑ kl ∈ Finset.antidiagonal n, (B kl.1 * t ^ kl.1) * (((1:ℝ) / kl.2.factorial - if kl.2 = 0 then 1 else 0) * t ^ kl.2) =
      if n = 1 then t else 0 := by
    intro n
    have h2 := congrArg (PowerSeries.coeff (R := ℚ) n) hp
    rw [PowerSeries.coeff_mul, PowerSeries.coeff_X] at h2
    have h3 : ∑ kl ∈ Finset.antidiagonal n, B kl.1 * ((1:ℝ) / kl.2.factorial - if kl.2 = 0 then 1 else 0) = if n = 1 then 1 else 0 := by
      have h4 := congrArg (fun q : ℚ => (q : ℝ)) h2
      simp only [Rat.cast_sum, Rat.cast_mul] at h4
      rw [show ((if n = 1 then (1:ℚ) else 0 : ℚ) : ℝ) = if n = 1 then 1 else 0 by split_ifs <;> simp] at h4
      rw [← h4]
      refine Finset.sum_congr rfl fun kl _ => ?_
      congr 1
      · simp [bernoulliPowerSeries, B]
      · simp only [map_sub, PowerSeries.coeff_exp, PowerSeries.coeff_one]
        split_ifs <;> simp
    have h5 : ∀ kl ∈ Finset.antidiagonal n, (B kl.1 * t ^ kl.1) * (((1:ℝ) / kl.2.factorial - if kl.2 = 0 then 1 else 0) * t ^ kl.2) =
        (B kl.1 * ((1:ℝ) / kl.2.factorial - if kl.2 = 0 then 1 else 0)) * t ^ n := fun kl hkl => by
      rw [← Finset.mem_antidiagonal.1 hkl, pow_add]; ring
    rw [Finset.sum_congr rfl h5, ← Finset.sum_mul, h3]
    split_ifs with h
    · rw [h]; ring
    · ring
  simp only [hc] at hm
  rw [tsum_ite_eq, he.tsum_eq] at hm
  have hne : Real.exp t - 1 ≠ 0 := by
    intro h; exact h0 (Real.exp_eq_one_iff t |>.1 (by linarith))
  rw [← (eq_div_iff hne).2 hm]
  exact hs.of_norm.hasSum

/-- The termwise integral. -/
theorem hasSum_integral {x : ℝ} (hx : |x| < 2 * Real.pi) (n : ℕ) :
    HasSum (fun k => B k * (x ^ (n + k + 1) / (n + k + 1))) (∫ t in (0:ℝ)..x, t ^ (n + 1) / (Real.exp t - 1)) := by
  have hle : ∀ t ∈ uIoc 0 x, |t| ≤ |x| := fun t ht => by
    have h := uIoc_subset_uIcc ht
    have := abs_sub_left_of_mem_uIcc h
    simpa using this
  have h := intervalIntegral.hasSum_integral_of_dominated_convergence (a := 0) (b := x) (μ := volume)
    (F := fun k t => B k * t ^ (n + k)) (f := fun t => t ^ (n + 1) / (Real.exp t - 1)) (fun k _ => |B k| * |x| ^ k * |x| ^ n)
    (fun k => (by fun_prop : Continuous fun t : ℝ => B k * t ^ (n + k)).aestronglyMeasurable) ?_ ?_ ?_ ?_
  · refine h.congr_fun' fun k => ?_
    rw [intervalIntegral.integral_const_mul, integral_pow]
    push_cast; ring
  · intro k
    refine Eventually.of_forall fun t ht => ?_
    rw [Real.norm_eq_abs, abs_mul, abs_pow, mul_assoc, ← pow_add, add_comm k n]
    exact mul_le_mul_of_nonneg_left (pow_le_pow_left₀ (abs_nonneg t) (hle t ht) _) (abs_nonneg _)
  · exact Eventually.of_forall fun t _ => (summable_B (abs_nonneg x) hx).mul_right _
  · exact intervalIntegrable_const
  · have : ∀ᵐ t : ℝ, t ≠ 0 := by simp [ae_iff, measure_singleton]
    filter_upwards [this] with t h0 ht
    have h2 := (hasSum_B ((hle t ht).trans_lt hx) h0).mul_left (t ^ n)
    rw [show t ^ n * (t / (Real.exp t - 1)) = t ^ (n + 1) / (Real.exp t - 1) by rw [pow_succ]; ring] at h2
    exact h2.congr_fun' fun k => by rw [pow_add]; ring

/-- `D_{n+1}` by its series -/
theorem hasSum_debye {x : ℝ} (hx : |x| < 2 * Real.pi) (h0 : x ≠ 0) (n : ℕ) :
    HasSum (fun k => B k * ((n + 1) / (n + k + 1)) * x ^ k) ((n + 1) / x ^ (n + 1) * ∫ t in (0:ℝ)..x, t ^ (n + 1) / (Real.exp t - 1)) := by
  refine ((hasSum_integral hx n).mul_left ((n + 1) / x ^ (n + 1))).congr_fun' fun k => ?_
  have : (n:ℝ) + k + 1 ≠ 0 := by positivity
  rw [show n + k + 1 = (n + 1) + k by ring, pow_add x (n + 1) k]
  field_simp

theorem summable_debye {r : ℝ} (h0 : 0 ≤ r) (h1 : r < 2 * Real.pi) (n : ℕ) : Summable fun k : ℕ => |B k| * (((n:ℝ) + 1) / (n + k + 1)) * r ^ k := by
  refine Summable.of_nonneg_of_le (fun k => by positivity) (fun k => ?_) (summable_B h0 h1)
  refine mul_le_mul_of_nonneg_right (mul_le_of_le_one_right (abs_nonneg _) ?_) (by positivity)
  rw [div_le_one (by positivity)]; have : (0:ℝ) ≤ k := k.cast_nonneg; linarith

theorem debye_even {x : ℝ} (hx : |x| < 2 * Real.pi) (h0 : x ≠ 0) (n : ℕ) :
    HasSum (fun i => B (2 * (1 + i)) * (((n:ℝ) + 1) / (n + (2 * (1 + i) : ℕ) + 1)) * x ^ (2 * (1 + i)))
      ((n + 1) / x ^ (n + 1) * (∫ t in (0:ℝ)..x, t ^ (n + 1) / (Real.exp t - 1)) - 1 + (n + 1) * x / (2 * (n + 2))) := by
  set f : ℕ → ℝ := fun k => B k * (((n:ℝ) + 1) / (n + k + 1)) * x ^ k with hf
  have h := hasSum_debye hx h0 n
  have hs : Summable fun k => f (2 * k) := h.summable.comp_injective (mul_right_injective₀ (two_ne_zero))
  have ho : HasSum (fun k => f (2 * k + 1)) (f 1) := by
    have := hasSum_single (f := fun k => f (2 * k + 1)) 0 (fun k hk => by simp [hf, B_odd hk])
    simpa using this
  have ht := (hs.hasSum.even_add_odd ho).unique h
  have he : HasSum (fun k => f (2 * k)) ((n + 1) / x ^ (n + 1) * (∫ t in (0:ℝ)..x, t ^ (n + 1) / (Real.exp t - 1)) - f 1) := by
    rw [← ht, add_sub_cancel_right]; exact hs.hasSum
  have h2 := (hasSum_nat_add_iff' 1).2 he
  simp only [Finset.range_one, Finset.sum_singleton, mul_zero] at h2
  have e0 : f 0 = 1 := by
    have : (n:ℝ) + 1 ≠ 0 := by positivity
    simp [hf, B_zero, this]
  have e1 : f 1 = -((n + 1) * x / (2 * (n + 2))) := by simp [hf, B_one]; field_simp; ring
  rw [e0, e1] at h2
  convert h2.congr_fun' (g := fun i => B (2 * (1 + i)) * (((n:ℝ) + 1) / (n + (2 * (1 + i) : ℕ) + 1)) * x ^ (2 * (1 + i))) fun i => by rw [hf, add_comm i 1] using 1
  ring

/-- `D_{n+1}(x) → 1` as `x → 0` -/
theorem tendsto_debye (n : ℕ) : Tendsto (fun x : ℝ => ((n:ℝ) + 1) / x ^ (n + 1) * ∫ t in (0:ℝ)..x, t ^ (n + 1) / (Real.exp t - 1)) (𝓝[≠] 0) (𝓝 1) := by
  have hp : (1:ℝ) < 2 * Real.pi := by linarith [Real.two_le_pi]
  have h := tendsto_tsum_of_dominated_convergence (𝓕 := 𝓝 (0:ℝ)) (f := fun (x : ℝ) k => B k * (((n:ℝ) + 1) / (n + k + 1)) * x ^ k)
    (g := fun k => B k * (((n:ℝ) + 1) / (n + k + 1)) * 0 ^ k) (summable_debye zero_le_one hp n) ?_ ?_
  · have e : ∑' k : ℕ, B k * (((n:ℝ) + 1) / (n + k + 1)) * 0 ^ k = 1 := by
      rw [tsum_eq_single 0 fun k hk => by simp [hk]]
      have : (n:ℝ) + 1 ≠ 0 := by positivity
      simp [B_zero, this]
    rw [e] at h
    refine (h.mono_left nhdsWithin_le_nhds).congr' ?_
    have h1 : ∀ᶠ x : ℝ in 𝓝[≠] 0, x ∈ Ioo (-1:ℝ) 1 := mem_nhdsWithin_of_mem_nhds (Ioo_mem_nhds (by norm_num) one_pos)
    filter_upwards [self_mem_nhdsWithin, h1] with x hx hx1
    exact (hasSum_debye ((abs_lt.2 hx1).trans hp) hx n).tsum_eq
  · intro k
    exact ((continuous_pow k).tendsto 0).const_mul _
  · filter_upwards [Ioo_mem_nhds (show (-1:ℝ) < 0 by norm_num) one_pos] with x hx k
    rw [Real.norm_eq_abs, abs_mul, abs_mul, abs_pow, abs_of_nonneg (show (0:ℝ) ≤ (n + 1) / (n + k + 1) by positivity)]
    exact mul_le_mul_of_nonneg_left (pow_le_pow_left₀ (abs_nonneg x) (abs_lt.2 hx).le k) (by positivity)

end Mpsci.dby
