import Verif.Lemmas.Fun.Special
import Mathlib.Analysis.Polynomial.Basic

/-! Hermite, spherical Bessel, Wright and Debye functions. -/

namespace Mpsci

open Classical Num Filter Topology Set MeasureTheory

namespace fun_

/-- C57 `hermite_e` is the probabilists' Hermite polynomial. -/
theorem hermiteE_spec : Spec.IsHermiteE hermiteE := fun n x => by
  rw [hermiteE_eq, Polynomial.hermite_eq_deriv_gaussian, Real.exp_neg, div_inv_eq_mul]
  congr 2; ring
/-- C57 The first ones are `1`, `x`, and the three-term recurrence holds. -/
theorem hermiteE_rec : (∀ x : ℝ, hermiteE 0 (fin x) = .ok 1) ∧ (∀ x : ℝ, hermiteE 1 (fin x) = .ok (fin x)) ∧
    ∀ (n : ℕ) (x : ℝ), ∃ u v : ℝ, hermiteE (fin (n:ℝ)) (fin x) = .ok (fin u) ∧ hermiteE (fin ((n + 1 : ℕ):ℝ)) (fin x) = .ok (fin v) ∧
      hermiteE (fin ((n + 2 : ℕ):ℝ)) (fin x) = .ok (fin (x * v - (n + 1) * u)) := by
  refine ⟨fun x => ?_, fun x => ?_, fun n x => ⟨_, _, hermiteE_eq n x, hermiteE_eq (n + 1) x, ?_⟩⟩
  · have := hermiteE_eq 0 x
    simpa [zero_def, one_def] using this
  · have := hermiteE_eq 1 x
    simpa [one_def] using this
  · rw [hermiteE_eq, hermite_rec]

/-- C58 Orders 0 and -1 of the four spherical Bessel functions are elementary. -/
theorem sphericalBesselj_closed : Spec.SphericalAt 0 sphericalBesselj (fun z => Real.sin z / z) ∧
    Spec.SphericalAt (-1) sphericalBesselj (fun z => Real.cos z / z) := by
  refine ⟨fun z hz => ?_, fun z hz => ?_⟩
  · rw [sphericalBesselj_eq _ hz, mul_comm, zero_add, besselJR_half hz]
  · rw [sphericalBesselj_eq _ hz, mul_comm, show (-1:ℝ) + 1 / 2 = -1 / 2 by norm_num, besselJR_neg_half hz]
/-- C58 -/
theorem sphericalBessely_closed : Spec.SphericalAt 0 sphericalBessely (fun z => -Real.cos z / z) ∧
    Spec.SphericalAt (-1) sphericalBessely (fun z => Real.sin z / z) := by
  refine ⟨fun z hz => ?_, fun z hz => ?_⟩
  · have := sphericalBessely_eq 0 hz
    rw [Int.cast_zero, zero_add, besselYR_half, mul_comm, mul_neg, besselJR_neg_half hz] at this
    rw [this]; simp only [neg_div]
  · have := sphericalBessely_eq (-1) hz
    rw [Int.cast_neg, Int.cast_one, show (-1:ℝ) + 1 / 2 = -1 / 2 by norm_num, besselYR_neg_half, mul_comm, besselJR_half hz] at this
    exact this
/-- C58 -/
theorem sphericalBesseli_closed : Spec.SphericalAt 0 sphericalBesseli (fun z => Real.sinh z / z) ∧
    Spec.SphericalAt (-1) sphericalBesseli (fun z => Real.cosh z / z) := by
  refine ⟨fun z hz => ?_, fun z hz => ?_⟩
  · rw [sphericalBesseli_eq _ hz, mul_comm, zero_add, besselIR_half hz]
  · rw [sphericalBesseli_eq _ hz, mul_comm, show (-1:ℝ) + 1 / 2 = -1 / 2 by norm_num, besselIR_neg_half hz]
/-- C58 -/
theorem sphericalBesselk_closed : Spec.SphericalAt 0 sphericalBesselk (fun z => Real.pi / 2 * Real.exp (-z) / z) ∧
    Spec.SphericalAt (-1) sphericalBesselk (fun z => Real.pi / 2 * Real.exp (-z) / z) := by
  have h : ∀ z : ℝ, 0 < z → besselKR (1 / 2) z * √(Real.pi / (2 * z)) = Real.pi / 2 * Real.exp (-z) / z := fun z hz => by
    rw [kI.K_half hz, mul_right_comm, Real.mul_self_sqrt (by have := Real.pi_pos; positivity)]
    field_simp
  refine ⟨fun z hz => ?_, fun z hz => ?_⟩
  · rw [sphericalBesselk_eq _ hz, zero_add, h z hz]
  · rw [sphericalBesselk_eq _ hz, show (-1:ℝ) + 1 / 2 = -(1 / 2) by norm_num, kI.K_neg, h z hz]

/-- C58 The recurrences in the order. -/
theorem sphericalBesselj_rec : Spec.SphericalRec univ 1 1 sphericalBesselj := fun n _ z hz =>
  ⟨_, _, _, sphericalBesselj_eq _ hz, sphericalBesselj_eq _ hz, sphericalBesselj_eq _ hz, by
    have h := besselJR_rec (n + 1 / 2) hz
    rw [show n + 1 / 2 - 1 = n - 1 + 1 / 2 by ring, show n + 1 / 2 + 1 = n + 1 + 1 / 2 by ring, show 2 * (n + 1 / 2) = 2 * n + 1 by ring] at h
    rw [one_mul, one_mul, ← mul_assoc, ← h]; ring⟩
/-- C58 -/
theorem sphericalBesseli_rec : Spec.SphericalRec univ (-1) 1 sphericalBesseli := fun n _ z hz =>
  ⟨_, _, _, sphericalBesseli_eq _ hz, sphericalBesseli_eq _ hz, sphericalBesseli_eq _ hz, by
    have h := besselIR_rec (n + 1 / 2) hz
    rw [show n + 1 / 2 - 1 = n - 1 + 1 / 2 by ring, show n + 1 / 2 + 1 = n + 1 + 1 / 2 by ring, show 2 * (n + 1 / 2) = 2 * n + 1 by ring] at h
    linear_combination √(Real.pi / (2 * z)) * h⟩
/-- C58 -/
theorem sphericalBesselk_rec : Spec.SphericalRec univ (-1) (-1) sphericalBesselk := fun n _ z hz =>
  ⟨_, _, _, sphericalBesselk_eq _ hz, sphericalBesselk_eq _ hz, sphericalBesselk_eq _ hz, by
    have h := kI.K_rec hz (n + 1 / 2)
    rw [show n + 1 / 2 - 1 = n - 1 + 1 / 2 by ring, show n + 1 / 2 + 1 = n + 1 + 1 / 2 by ring] at h
    rw [div_mul_eq_mul_div, eq_div_iff hz.ne']
    linear_combination -√(Real.pi / (2 * z)) * h⟩
/-- C58 `y`, for integer orders. -/
theorem sphericalBessely_rec : Spec.SphericalRec (range ((↑) : ℤ → ℝ)) 1 1 sphericalBessely := by
  rintro _ ⟨n, rfl⟩ z hz
  have e1 := sphericalBessely_eq (n - 1) hz
  have e2 := sphericalBessely_eq (n + 1) hz
  push_cast at e1 e2
  refine ⟨_, _, _, e1, sphericalBessely_eq n hz, e2, ?_⟩
  have h := besselYR_rec hz (sin_half_ne n)
  rw [show (n:ℝ) + 1 / 2 - 1 = n - 1 + 1 / 2 by ring, show (n:ℝ) + 1 / 2 + 1 = n + 1 + 1 / 2 by ring, show 2 * ((n:ℝ) + 1 / 2) = 2 * n + 1 by ring] at h
  rw [one_mul, one_mul, ← mul_assoc, ← h]; ring

example : sphericalBesselj 0 (fin (Real.pi / 2)) = .ok (fin (2 / Real.pi)) := by
  have := sphericalBesselj_closed.1 (Real.pi / 2) (by have := Real.pi_pos; positivity)
  simp only [Real.sin_pi_div_two] at this
  rw [zero_def, this]; congr 2; field_simp

/-- C59 `wright_bessel` is the sum of Wright's series whenever it returns a real number: for every `rho > -1`, real `beta` and real `z`,
except `rho = 1` with negative `z` (where the code takes the square root of a negative number). -/
theorem wrightBessel_spec (z ρ β : ℝ) (hρ : -1 < ρ) (h : ρ ≠ 1 ∨ 0 ≤ z) :
    ∃ v, wrightBessel (fin z) (fin ρ) (fin β) = .ok (fin v) ∧ Spec.IsWright z ρ β v := by
  have hsum : Spec.IsWright z ρ β (wrightR ρ β z) :=
    (summable_wright hρ β z).hasSum.congr_fun' fun k => wright_term_eq k z ρ β
  obtain ⟨g, hg, hg2, hg3⟩ : ∃ g, wrightGamma (fin β) = .ok g ∧ (1 : Num) /. g = .ok (fin (1 / Real.Gamma β)) ∧
      mp.exp (fin z) /. g = .ok (fin (Real.exp z / Real.Gamma β)) := by
    by_cases hb : ∃ m : ℕ, β = -m
    · refine ⟨pinf, by simp [wrightGamma, mp.gammaReal, if_pos hb], ?_, ?_⟩
      · rw [Real.Gamma_eq_zero_iff _ |>.2 hb, div_zero]; rfl
      · rw [Real.Gamma_eq_zero_iff _ |>.2 hb, div_zero]; rfl
    · have h0 : Real.Gamma β ≠ 0 := Real.Gamma_ne_zero fun m hm => hb ⟨m, hm⟩
      exact ⟨fin (Real.Gamma β), by simp [wrightGamma, mp.gammaReal, if_neg hb], by rw [one_def, fin_div _ h0], by rw [mp.exp_fin, fin_div _ h0]⟩
  have hn1 : ¬ (fin ρ ≤ (-1 : Num)) := by
    rw [one_def, neg_fin, fin_le]; exact not_le.2 hρ
  refine ⟨wrightR ρ β z, ?_, hsum⟩
  rw [wrightBessel, if_neg hn1, hg]
  simp only [ok_bind, zero_def, one_def, fin_eq]
  by_cases hz : z = 0
  · rw [if_pos hz, ← one_def, hg2, wrightR, tsum_eq_single 0 fun k hk => by simp [hz, hk]]
    simp
  rw [if_neg hz]
  by_cases h0 : ρ = 0
  · rw [if_pos h0, hg3, h0, wrightR]
    have e : HasSum (fun k : ℕ => z ^ k / k.factorial) (Real.exp z) := by
      rw [Real.exp_eq_exp_ℝ]; exact NormedSpace.expSeries_div_hasSum_exp z
    rw [← (e.div_const (Real.Gamma β)).tsum_eq]
    congr 2
    refine tsum_congr fun k => ?_
    rw [zero_mul, zero_add, div_div]
  rw [if_neg h0]
  by_cases h1 : ρ = 1
  · have hz0 : 0 < z := lt_of_le_of_ne (h.resolve_left (not_not.2 h1)) (Ne.symm hz)
    have hs : 0 < √z := Real.sqrt_pos.2 hz0
    have hs2 : 0 < 2 * √z := by positivity
    rw [if_pos h1]
    simp only [mp.sqrt_nonneg hz0.le, ok_bind, fin_sub, mp.power_pos hs, ofNat_def, fin_mul, Nat.cast_ofNat, mp.besseliR_pos _ hs2, pure_eq_ok]
    rw [besselIR_eq _ hs2, show 2 * √z / 2 = √z by ring, ← mul_assoc, ← Real.rpow_add hs, Real.sq_sqrt hz0.le, h1, sub_add_cancel,
      show 1 - β + (β - 1) = 0 by ring, Real.rpow_zero, one_mul]
  · rw [if_neg h1]
    refine mp.nsum_eq (u := fun k => if ∃ m : ℕ, ρ * k + β = -m then 0 else z ^ k / (k.factorial * Real.Gamma (ρ * k + β))) (fun i => ?_)
      hsum.tendsto_sum_nat
    rw [zero_add]; exact wrightTerm_eq i z ρ β hz

/-- C59 `rho <= -1` is rejected. -/
theorem wrightBessel_rejects (z ρ β : ℝ) (h : ρ ≤ -1) : wrightBessel (fin z) (fin ρ) (fin β) = .error .valueError := by
  have h1 : fin ρ ≤ (-1 : Num) := by rw [one_def, neg_fin, fin_le]; exact h
  rw [wrightBessel, if_pos h1]; rfl
/-- C59 For `rho = 1` and negative `z` the function leaves the real numbers although the series has a real sum. -/
theorem wrightBessel_one_neg : ∃ z β : ℝ, (∃ v, Spec.IsWright z 1 β v) ∧ wrightBessel (fin z) 1 (fin β) = .error .complexResult := by
  refine ⟨-1, 1, ⟨_, (summable_wright (by norm_num) 1 (-1)).hasSum.congr_fun' fun k => wright_term_eq k (-1) 1 1⟩, ?_⟩
  have hn1 : ¬ ((1 : Num) ≤ (-1 : Num)) := by rw [one_def, neg_fin, fin_le]; norm_num
  have hb : ¬ ∃ m : ℕ, (1:ℝ) = -m := by
    rintro ⟨m, hm⟩; have : (0:ℝ) ≤ m := m.cast_nonneg; linarith
  rw [wrightBessel, if_neg hn1, wrightGamma, mp.gammaReal, if_neg hb]
  have h2 : (-1:ℝ) ≠ 0 := by norm_num
  simp only [ok_bind, zero_def, one_def, fin_eq, if_neg h2, if_neg (one_ne_zero (α := ℝ)), if_pos, mp.sqrt_neg (show (-1:ℝ) < 0 by norm_num)]
  rfl

/-- C59 Non-vacuity: a negative `rho`, with a pole in the second term. -/
example : ∃ v, wrightBessel 2 (fin (-1 / 2)) (fin (1 / 2)) = .ok (fin v) ∧ Spec.IsWright 2 (-1 / 2) (1 / 2) v :=
  wrightBessel_spec 2 (-1 / 2) (1 / 2) (by norm_num) (Or.inl (by norm_num))

/-- C61 For `n ≥ 1` and every real `x ≠ 0`, `debye(x, n)` is the Debye function. -/
theorem debye_quad (n : ℕ) (hn : 1 ≤ n) (x : ℝ) (hx : x ≠ 0) : debye (fin x) n = .ok (fin (Spec.debye n x)) := by
  obtain ⟨k, rfl⟩ := Nat.exists_eq_add_of_le' hn
  have hq : mp.quad (debyeIntegrand ((k + 1 : ℕ) : ℤ)) (fin 0) (fin x) = .ok (fin (∫ t in (0:ℝ)..x, t ^ (k + 1) / (Real.exp t - 1))) := by
    refine mp.quad_uIoo (F := fun t => t ^ (k + 1) / (Real.exp t - 1)) (fun t ht => ?_) ?_
    · have ht0 : t ≠ 0 := by
        rintro rfl
        rcases le_total 0 x with h | h
        · rw [uIoo_of_le h] at ht; exact lt_irrefl _ ht.1
        · rw [uIoo_of_ge h] at ht; exact lt_irrefl _ ht.2
      have he : Real.exp t - 1 ≠ 0 := fun h => ht0 ((Real.exp_eq_one_iff t).1 (by linarith))
      simp only [debyeIntegrand, zero_def, fin_eq, if_neg ht0, Int.toNat_natCast, mp.ipow_fin, mp.expm1_fin, fin_div _ he]
    · refine Measure.integrableOn_of_bounded (M := |x| ^ k * (1 + |x|)) ?_ (Measurable.aestronglyMeasurable (by fun_prop)) ?_
      · rcases le_total 0 x with h | h
        · rw [uIoo_of_le h]; exact measure_Ioo_lt_top.ne
        · rw [uIoo_of_ge h]; exact measure_Ioo_lt_top.ne
      · refine (ae_restrict_iff' (by unfold uIoo; exact measurableSet_Ioo)).2 (Eventually.of_forall fun t ht => ?_)
        rw [Real.norm_eq_abs]
        refine debye_int_bound k ?_
        have := abs_sub_left_of_mem_uIcc (uIoo_subset_uIcc_self ht)
        simpa using this
  have h1 : ¬ (((k + 1 : ℕ) : ℤ) < 1) := by omega
  rw [debye, if_neg h1, if_neg (by simp)]
  simp only [zero_def, fin_eq, if_neg hx, if_true, hq, ok_bind, ofInt_def, Int.toNat_natCast, mp.ipow_fin, fin_mul, fin_div _ (pow_ne_zero (k + 1) hx)]
  rw [Spec.debye, Int.cast_natCast, div_mul_eq_mul_div]

/-- C61 The series method gives the same value for `0 < |x| < 2π`. -/
theorem debye_nsum (n : ℕ) (hn : 1 ≤ n) (x : ℝ) (hx : x ≠ 0) (h2 : |x| < 2 * Real.pi) : debye (fin x) n "nsum" = .ok (fin (Spec.debye n x)) := by
  obtain ⟨k, rfl⟩ := Nat.exists_eq_add_of_le' hn
  have h := (dby.debye_even h2 hx k).div_const ((k:ℝ) + 1)
  have hk1 : (k:ℝ) + 1 ≠ 0 := by positivity
  have hq := mp.nsum_eq (t := debyeTerm (fin x) ((k + 1 : ℕ) : ℤ)) (start := 1) (fun i => by
    have e1 : (((2 * (1 + i) : ℕ) : ℝ) + ((k + 1 : ℕ) : ℝ)) ≠ 0 := by positivity
    have e2 : ((2 * (1 + i)).factorial : ℝ) ≠ 0 := by exact_mod_cast (2 * (1 + i)).factorial_ne_zero
    simp only [debyeTerm, mp.bernoulli, ofInt_def, fin_add, Int.cast_natCast, fin_div _ e1, mp.factorial_nat, ok_bind, fin_div _ e2, mp.ipow_fin, fin_mul, pure_eq_ok]
    have e3 : dby.B (2 * (1 + i)) * (((k:ℝ) + 1) / (k + (2 * (1 + i) : ℕ) + 1)) * x ^ (2 * (1 + i)) / (k + 1) =
        ((bernoulli (2 * (1 + i)) : ℚ) : ℝ) / (((2 * (1 + i) : ℕ) : ℝ) + ((k + 1 : ℕ) : ℝ)) / (2 * (1 + i)).factorial * x ^ (2 * (1 + i)) := by
      rw [dby.B]
      have e4 : (k:ℝ) + (2 * (1 + i) : ℕ) + 1 ≠ 0 := by positivity
      have e5 : (((2 * (1 + i) : ℕ) : ℝ) + ((k + 1 : ℕ) : ℝ)) = (k:ℝ) + (2 * (1 + i) : ℕ) + 1 := by push_cast; ring
      rw [e5]
      field_simp
    exact congrArg (fun r : ℝ => (Except.ok (fin r) : M Num)) e3.symm) h.tendsto_sum_nat
  have h1 : ¬ (((k + 1 : ℕ) : ℤ) < 1) := by omega
  have hk2 : (2 * (((k + 1 : ℕ) : ℝ) + 1)) ≠ 0 := by positivity
  rw [debye, if_neg h1, if_neg (by simp)]
  simp only [zero_def, fin_eq, if_neg hx, if_neg (show ¬ ("nsum" = "quad") by decide), hq, ok_bind, ofInt_def, fin_mul, one_def, ofNat_def, fin_add,
    Int.cast_natCast, Nat.cast_ofNat, fin_div _ hk2, fin_sub, pure_eq_ok]
  rw [Spec.debye]
  congr 2
  push_cast
  have hk3 : (k:ℝ) + 2 ≠ 0 := by positivity
  rw [mul_div_cancel₀ _ hk1, show (k:ℝ) + 1 + 1 = k + 2 by ring]
  ring

/-- C61 The value 1 at `x = 0`, with either method, is the limit of the function there. -/
theorem debye_zero (n : ℕ) (hn : 1 ≤ n) : debye 0 n = .ok 1 ∧ debye 0 n "nsum" = .ok 1 ∧ Tendsto (Spec.debye n) (𝓝[≠] 0) (𝓝 1) := by
  have h1 : ¬ ((n : ℤ) < 1) := by omega
  refine ⟨?_, ?_, ?_⟩
  · rw [debye, if_neg h1, if_neg (by simp), if_pos (by simp [zero_def])]; rfl
  · rw [debye, if_neg h1, if_neg (by simp), if_pos (by simp [zero_def])]; rfl
  · obtain ⟨k, rfl⟩ := Nat.exists_eq_add_of_le' hn
    refine (dby.tendsto_debye k).congr fun x => ?_
    rw [Spec.debye]; push_cast; rfl

/-- C61 Other orders and methods raise ValueError. -/
theorem debye_rejects (x : Num) (n : ℤ) (method : String) (h : n < 1 ∨ (method ≠ "quad" ∧ method ≠ "nsum")) :
    debye x n method = .error .valueError := by
  rw [debye]
  by_cases h1 : n < 1
  · rw [if_pos h1]; rfl
  · have h2 := h.resolve_left h1
    rw [if_neg h1, if_pos (by tauto)]; rfl

example : debye 1 3 = .ok (fin (Spec.debye 3 1)) ∧ debye 1 3 = debye 1 3 "nsum" := by
  have h1 := debye_quad 3 (by norm_num) 1 one_ne_zero
  have h2 := debye_nsum 3 (by norm_num) 1 one_ne_zero (by rw [abs_one]; linarith [Real.two_le_pi])
  exact ⟨h1, h1.trans h2.symm⟩

end fun_
end Mpsci
