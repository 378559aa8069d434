import Verif.Lemmas.DiscMoments
import Verif.Props.Disc.Poisson

/-! Skewness and kurtosis of the Poisson distribution. -/

namespace Mpsci.poisson

open Classical Num Spec Finset

variable {lam : ℝ}

theorem P_mean3 (lam : ℝ) : HasSum (fun k : ℕ => (k:ℝ) * ((k:ℝ) - 1) * ((k:ℝ) - 2) * P lam k) (lam ^ 3) := by
  rw [← hasSum_nat_add_iff' 1]
  simp only [sum_range_one, Nat.cast_zero, zero_mul, sub_zero]
  have := (P_mean2 lam).mul_left lam
  refine hasSum_of this (fun k => by push_cast; linear_combination (k:ℝ) * ((k:ℝ) - 1) * P_succ lam k) (by ring)

theorem P_mean4 (lam : ℝ) : HasSum (fun k : ℕ => (k:ℝ) * ((k:ℝ) - 1) * ((k:ℝ) - 2) * ((k:ℝ) - 3) * P lam k) (lam ^ 4) := by
  rw [← hasSum_nat_add_iff' 1]
  simp only [sum_range_one, Nat.cast_zero, zero_mul, sub_zero]
  have := (P_mean3 lam).mul_left lam
  refine hasSum_of this (fun k => by push_cast; linear_combination (k:ℝ) * ((k:ℝ) - 1) * ((k:ℝ) - 2) * P_succ lam k) (by ring)

theorem P_ext {φ : ℝ → ℝ} {a : ℝ} (h : HasSum (fun k : ℕ => φ k * P lam k) a) : HasSum (fun k : ℤ => φ k * extZ (P lam) k) a :=
  hasSum_int h (fun k hk => by rw [extZ_neg _ hk, mul_zero]) fun k => by simp

theorem P_e1 (lam : ℝ) : HasSum (fun k : ℤ => (k:ℝ) * extZ (P lam) k) lam := P_ext (φ := id) (P_mean lam)
theorem P_e2 (lam : ℝ) : HasSum (fun k : ℤ => (k:ℝ) * ((k:ℝ) - 1) * extZ (P lam) k) (lam ^ 2) := P_ext (φ := fun k => k * (k - 1)) (P_mean2 lam)
theorem P_e3 (lam : ℝ) : HasSum (fun k : ℤ => (k:ℝ) * ((k:ℝ) - 1) * ((k:ℝ) - 2) * extZ (P lam) k) (lam ^ 3) :=
  P_ext (φ := fun k => k * (k - 1) * (k - 2)) (P_mean3 lam)
theorem P_e4 (lam : ℝ) : HasSum (fun k : ℤ => (k:ℝ) * ((k:ℝ) - 1) * ((k:ℝ) - 2) * ((k:ℝ) - 3) * extZ (P lam) k) (lam ^ 4) :=
  P_ext (φ := fun k => k * (k - 1) * (k - 2) * (k - 3)) (P_mean4 lam)

theorem P_var (lam : ℝ) : HasSum (fun k : ℤ => ((k:ℝ) - lam) ^ 2 * extZ (P lam) k) lam :=
  hasSum_of (hasSum_var (hasSum_extZ (P_sum lam)) (P_e1 lam) (P_e2 lam)) (fun _ => rfl) (by ring)

/-- C37 `skewness` is the skewness. -/
theorem isSkewness (h : 0 < lam) : IsDSkewness Set.univ (fun k => pmf k (fin lam)) (skewness (fin lam)) := by
  refine ⟨_, _, _, _, mass_univ (pmf_eval h), P_e1 lam, P_var lam, hasSum_central3 (hasSum_extZ (P_sum lam)) (P_e1 lam) (P_e2 lam) (P_e3 lam), h, ?_⟩
  have hs := Real.sqrt_pos.2 h
  simp only [skewness, validate_ok h, ok_bind, mp.sqrt_nonneg h.le, one_def, fin_div _ hs.ne']
  congr 2
  rw [show (3 / 2 : ℝ) = 1 + 1 / 2 by norm_num, Real.rpow_add h, Real.rpow_one, ← Real.sqrt_eq_rpow]
  field_simp
  ring

/-- C37 `kurtosis` is the excess kurtosis. -/
theorem isKurtosis (h : 0 < lam) : IsDKurtosis Set.univ (fun k => pmf k (fin lam)) (kurtosis (fin lam)) := by
  refine ⟨_, _, _, _, mass_univ (pmf_eval h), P_e1 lam, P_var lam,
    hasSum_central4 (hasSum_extZ (P_sum lam)) (P_e1 lam) (P_e2 lam) (P_e3 lam) (P_e4 lam), h, ?_⟩
  simp only [kurtosis, validate_ok h, ok_bind, one_def, fin_div _ h.ne']
  congr 2
  field_simp
  ring

/-- Non-vacuity. -/
example : skewness (fin 4) = .ok (fin (1 / 2)) := by
  have e : √(4:ℝ) = 2 := by rw [show (4:ℝ) = 2 ^ 2 by norm_num]; exact Real.sqrt_sq (by norm_num)
  simp [skewness, validate_ok (show (0:ℝ) < 4 by norm_num), mp.sqrt_nonneg (show (0:ℝ) ≤ 4 by norm_num), e]

end Mpsci.poisson
