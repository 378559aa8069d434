import Verif.Lemmas.Discrete
import Verif.Lemmas.Common
import Verif.Spec
import Verif.Spec.DiscMoments
import Verif.Model.Disc.GaussKuzmin
import Mathlib.Analysis.PSeries
import Mathlib.Analysis.SpecialFunctions.Log.Deriv

/-! The masses of the Gauss-Kuzmin distribution. -/

namespace Mpsci.gauss_kuzmin

open Classical Num Spec Finset

/-- The upper tail. -/
noncomputable def s (x : ℝ) : ℝ := Real.log (1 + 1 / (x + 1)) / Real.log 2

/-- The mass at `k`. -/
noncomputable def K : ℕ → ℝ
  | 0 => 0
  | k + 1 => s k - s (k + 1 : ℕ)

theorem log2_pos : 0 < Real.log 2 := Real.log_pos one_lt_two

theorem s_zero : s 0 = 1 := by
  have := log2_pos
  rw [s, show (1:ℝ) + 1 / (0 + 1) = 2 by norm_num, div_self this.ne']

theorem s_anti {x y : ℝ} (hx : 0 ≤ x) (hxy : x < y) : s y < s x := by
  have := log2_pos
  have hy : (0:ℝ) < 1 / (y + 1) := one_div_pos.2 (by linarith)
  unfold s
  refine div_lt_div_of_pos_right (Real.log_lt_log (by linarith) ?_) this
  have : 1 / (y + 1) < 1 / (x + 1) := one_div_lt_one_div_of_lt (by linarith) (by linarith)
  linarith

theorem s_pos {x : ℝ} (hx : 0 ≤ x) : 0 < s x := by
  have h : (0:ℝ) < 1 / (x + 1) := by positivity
  exact div_pos (Real.log_pos (by linarith)) log2_pos

theorem K_pos (k : ℕ) : 0 < K (k + 1) := by
  have := s_anti (Nat.cast_nonneg k) (show (k:ℝ) < (k + 1 : ℕ) by push_cast; linarith)
  simp only [K]; linarith

theorem K_nonneg (k : ℕ) : 0 ≤ K k := by
  cases k with
  | zero => simp [K]
  | succ k => exact (K_pos k).le

theorem K_upto (k : ℕ) : ∑ j ∈ range (k + 1), K j = 1 - s k := by
  induction k with
  | zero => simp [K, s_zero]
  | succ k ih => rw [sum_range_succ, ih]; simp only [K]; ring

theorem tendsto_s : Filter.Tendsto (fun k : ℕ => s k) Filter.atTop (nhds 0) := by
  have h1 : Filter.Tendsto (fun k : ℕ => (1:ℝ) / ((k:ℝ) + 1)) Filter.atTop (nhds 0) := tendsto_one_div_add_atTop_nhds_zero_nat
  have h2 : Filter.Tendsto (fun k : ℕ => Real.log (1 + 1 / ((k:ℝ) + 1)) / Real.log 2) Filter.atTop (nhds (Real.log (1 + 0) / Real.log 2)) :=
    ((tendsto_const_nhds.add h1).log (by norm_num)).div_const _
  simpa [s] using h2

theorem K_sum : HasSum K 1 := by
  rw [hasSum_iff_tendsto_nat_of_nonneg K_nonneg, ← Filter.tendsto_add_atTop_iff_nat 1]
  simp only [K_upto]
  simpa using (tendsto_const_nhds (x := (1:ℝ))).sub tendsto_s

/-- The mass as a logarithm. -/
theorem K_eq (k : ℕ) : K (k + 1) = -Real.log (1 - (1 / ((k:ℝ) + 2)) ^ 2) / Real.log 2 := by
  have h1 : (0:ℝ) < (k:ℝ) + 1 := by positivity
  have h2 : (0:ℝ) < (k:ℝ) + 2 := by positivity
  simp only [K, s]
  rw [← sub_div, ← Real.log_div (by positivity) (by positivity), ← Real.log_inv]
  congr 2
  push_cast
  have h3 : (k:ℝ) + 3 ≠ 0 := by positivity
  have e : 1 - (1 / ((k:ℝ) + 2)) ^ 2 = (k + 1) * (k + 3) / (k + 2) ^ 2 := by field_simp; ring
  rw [e, show (k:ℝ) + 1 + 1 = k + 2 by ring]
  have e3 : 1 + 1 / ((k:ℝ) + 2) = (k + 3) / (k + 2) := by field_simp; ring
  have e4 : 1 + 1 / ((k:ℝ) + 1) = (k + 2) / (k + 1) := by field_simp; ring
  rw [e3, e4]
  field_simp

theorem K_anti (k : ℕ) : K (k + 2) ≤ K (k + 1) := by
  have := log2_pos
  rw [K_eq k, K_eq (k + 1)]
  have h1 : (0:ℝ) < (k:ℝ) + 2 := by positivity
  have h2 : (1 / (((k + 1 : ℕ):ℝ) + 2)) ^ 2 ≤ (1 / ((k:ℝ) + 2)) ^ 2 := by
    push_cast
    gcongr
    linarith
  have h3 : (1 / ((k:ℝ) + 2)) ^ 2 < 1 := by
    rw [sq_lt_one_iff₀ (by positivity), div_lt_one h1]
    linarith [Nat.cast_nonneg (α := ℝ) k]
  have h4 := Real.log_le_log (show 0 < 1 - (1 / ((k:ℝ) + 2)) ^ 2 by linarith) (show 1 - (1 / ((k:ℝ) + 2)) ^ 2 ≤ 1 - (1 / (((k + 1 : ℕ):ℝ) + 2)) ^ 2 by linarith)
  gcongr

theorem K_lower (k : ℕ) : 1 / 4 * (1 / (((k + 1 : ℕ):ℝ))) ≤ ((k + 1 : ℕ):ℝ) * K (k + 1) := by
  have hl := log2_pos
  have hk : (0:ℝ) ≤ k := Nat.cast_nonneg k
  have h1 : (1 / ((k:ℝ) + 2)) ^ 2 ≤ K (k + 1) := by
    rw [K_eq, le_div_iff₀ hl]
    have hx : (1 / ((k:ℝ) + 2)) ^ 2 < 1 := by
      rw [sq_lt_one_iff₀ (by positivity), div_lt_one (by positivity)]
      linarith
    have := Real.log_le_sub_one_of_pos (show 0 < 1 - (1 / ((k:ℝ) + 2)) ^ 2 by linarith)
    have hl1 : Real.log 2 ≤ 1 := by
      have := Real.log_le_sub_one_of_pos (zero_lt_two' ℝ)
      linarith
    have h2 : (1 / ((k:ℝ) + 2)) ^ 2 * Real.log 2 ≤ (1 / ((k:ℝ) + 2)) ^ 2 * 1 := by gcongr
    linarith
  refine le_trans ?_ (mul_le_mul_of_nonneg_left h1 (by positivity))
  push_cast
  rw [div_pow, one_pow, mul_one_div, mul_one_div, div_le_div_iff₀ (by positivity) (by positivity)]
  nlinarith

theorem not_summable_mean : ¬ Summable fun k : ℕ => (k:ℝ) * K k := by
  intro h
  have h1 := (summable_nat_add_iff 1).2 h
  have h2 : Summable fun k : ℕ => 1 / 4 * (1 / (((k + 1 : ℕ):ℝ))) :=
    Summable.of_nonneg_of_le (fun k => by positivity) K_lower h1
  have h3 := (summable_mul_left_iff (show (1 / 4 : ℝ) ≠ 0 by norm_num)).1 h2
  have h4 := (summable_nat_add_iff 1 (f := fun k : ℕ => 1 / (k:ℝ))).1 h3
  exact Real.not_summable_one_div_natCast h4

theorem not_summable_ext {φ : ℝ → ℝ} (h : ¬ Summable fun k : ℕ => φ k * K k) : ¬ Summable fun k : ℤ => φ k * extZ K k := by
  intro hs
  refine h ?_
  have := hs.comp_injective (i := (Nat.cast : ℕ → ℤ)) Nat.cast_injective
  simpa [Function.comp_def] using this

theorem not_summable_var : ¬ Summable fun k : ℕ => (k:ℝ) ^ 2 * K k := by
  intro h
  refine not_summable_mean (Summable.of_nonneg_of_le (fun k => mul_nonneg (Nat.cast_nonneg k) (K_nonneg k)) (fun k => ?_) h)
  refine mul_le_mul_of_nonneg_right ?_ (K_nonneg k)
  rcases Nat.eq_zero_or_pos k with rfl | hk
  · simp
  · have : (1:ℝ) ≤ k := by exact_mod_cast hk
    nlinarith

end Mpsci.gauss_kuzmin
