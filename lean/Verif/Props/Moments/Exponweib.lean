import Verif.Lemmas.ExponweibInt

/-! Mean, variance and noncentral moments of `exponweib`, which are sums of infinite series. -/

namespace Mpsci.exponweib

open Classical Num Spec common Set MeasureTheory Filter Topology

variable {a c s : ℝ}

theorem fold_eval (a : ℝ) (i : ℕ) : (List.range i).foldl (fun y (j : ℕ) => y * (fin a - 1 - fin (j:ℝ))) 1 =
    fin (coef a i * (-1) ^ i * i.factorial) := by
  induction i with
  | zero => simp [coef, one_def]
  | succ i ih =>
    rw [List.range_succ, List.foldl_append, ih]
    simp only [List.foldl_cons, List.foldl_nil, one_def, fin_sub, fin_mul]
    congr 1
    rw [coef, pow_succ, Nat.factorial_succ]
    push_cast
    field_simp
    ring

theorem power_neg_one (i : ℕ) : mp.power (fin (-1)) (fin (i:ℝ)) = .ok (fin ((-1) ^ i)) := by
  have h1 : ¬ (0:ℝ) < -1 := by norm_num
  have h2 : ¬ (-1:ℝ) = 0 := by norm_num
  simp [mp.power, h1]

theorem term_eval (hc : 0 < c) (i : ℕ) (k : ℝ) : term i (fin k) (fin a) (fin c) =
    .ok (fin (coef a i * ((i:ℝ) + 1) ^ (-(k / c + 1)))) := by
  have hi : (0:ℝ) < (i:ℝ) + 1 := by positivity
  have hf : (i.factorial : ℝ) ≠ 0 := by positivity
  have h1 : ((-1:ℝ) ^ i) * (-1) ^ i = 1 := by rw [← mul_pow]; simp
  have e : aCoeff i (fin a) = .ok (fin (coef a i)) := by
    simp only [aCoeff, fold_eval, power_neg_one, mp.factorial_nat, ok_bind, fin_mul, fin_div _ hf]
    congr 2
    rw [div_eq_iff hf]
    linear_combination coef a i * i.factorial * h1
  simp only [term, e, ok_bind, fin_div _ hc.ne', one_def, fin_add, neg_fin, mp.power_pos hi, fin_mul, pure_eq_ok]

theorem moment_eval (ha : 0 < a) (hc : 0 < c) (hs : 0 < s) (n : ℕ) :
    noncentralMoment (fin n) (fin a) (fin c) (fin s) = .ok (fin (s ^ n * (a * (Real.Gamma (n / c + 1) * S a (n / c))))) := by
  have hr : 0 ≤ (n:ℝ) / c := by positivity
  have hg : 0 < (n:ℝ) / c + 1 := by positivity
  have h := ((hasSum_nat_add_iff' 1).2 (hasSum_S ha hr)).tendsto_sum_nat
  have hn := mp.nsum_eq (t := fun i => term i (fin n) (fin a) (fin c)) (start := 1) (fun i => by rw [add_comm]; exact term_eval hc (i + 1) n) h
  simp only [noncentralMoment, validate_ok ha hc hs, ok_bind, hn, mp.power_pos hs, fin_div _ hc.ne', one_def, fin_add, mp.gamma_pos hg, fin_mul, pure_eq_ok]
  simp only [Finset.sum_range_one, coef, Nat.cast_zero, zero_add, Real.one_rpow, mul_one, Real.rpow_natCast]
  congr 2; ring

theorem F_aff (ha : 0 < a) (hc : 0 < c) (hs : 0 < s) (p : ℝ) (h0 : 0 < p) (h1 : p < 1) :
    (fun x => F a c (x / s)) (0 + s * Q a c p) = p := by
  simp only [zero_add, mul_div_cancel_left₀ _ hs.ne']; exact (F_Q ha hc hs h0 h1).2

/-- C50, C37: every noncentral moment is the integral of `x^n pdf(x)` (all of them exist) -/
theorem isMoment (ha : 0 < a) (hc : 0 < c) (hs : 0 < s) (n : ℕ) :
    IsMoment {0} (pdf · (fin a) (fin c) (fin s)) n (noncentralMoment (fin n) (fin a) (fin c) (fin s)) := by
  refine isMoment_of_int01 (finite_singleton 0) (fun x hx => pdf_eval ha hc hs x hx) (isDist ha hc hs) (F_aff ha hc hs) ?_ (moment_eval ha hc hs n)
  exact ((int01_Q ha hc n).mul (s ^ n)).congr fun p _ _ => by rw [zero_add, mul_pow]

theorem hasMV (ha : 0 < a) (hc : 0 < c) (hs : 0 < s) : HasMV (fun x => f a c (x / s) / s)
    (s * (a * (Real.Gamma (1 / c + 1) * S a (1 / c))))
    (s ^ 2 * (a * (Real.Gamma (2 / c + 1) * S a (2 / c)) - (a * (Real.Gamma (1 / c + 1) * S a (1 / c))) ^ 2)) := by
  have h1 := int01_Q ha hc 1
  have h2 := int01_Q ha hc 2
  simp only [pow_one, Nat.cast_one, Nat.cast_ofNat] at h1 h2
  have := hasMV_of_affine (isDist ha hc hs) (F_aff ha hc hs) h1 h2
  rwa [zero_add] at this

theorem mean_eval (ha : 0 < a) (hc : 0 < c) (hs : 0 < s) :
    mean (fin a) (fin c) (fin s) = .ok (fin (s * (a * (Real.Gamma (1 / c + 1) * S a (1 / c))))) := by
  have := moment_eval ha hc hs 1
  simpa [mean, one_def] using this

/-- C37, C50 -/
theorem isMean (ha : 0 < a) (hc : 0 < c) (hs : 0 < s) : IsMean {0} (pdf · (fin a) (fin c) (fin s)) (mean (fin a) (fin c) (fin s)) :=
  (hasMV ha hc hs).isMean (finite_singleton 0) (fun x hx => pdf_eval ha hc hs x hx) (mean_eval ha hc hs)

/-- C37, C50 -/
theorem isVar (ha : 0 < a) (hc : 0 < c) (hs : 0 < s) : IsVar {0} (pdf · (fin a) (fin c) (fin s)) (var (fin a) (fin c) (fin s)) := by
  refine (hasMV ha hc hs).isVar (finite_singleton 0) (fun x hx => pdf_eval ha hc hs x hx) ?_
  have h1 := moment_eval ha hc hs 1
  have h2 := moment_eval ha hc hs 2
  rw [Nat.cast_one, ← one_def] at h1
  rw [Nat.cast_ofNat] at h2
  rw [var, h1, ok_bind, show (2 : Num) = fin 2 from ofNat_def 2, h2]
  simp only [ok_bind, mp.ipow_fin, fin_sub, pure_eq_ok]
  congr 2; ring

/-- C37, C50: bad parameters are rejected -/
theorem moments_validate (h : ¬ (0 < a ∧ 0 < c ∧ 0 < s)) (k : Num) : mean (fin a) (fin c) (fin s) = .error .valueError ∧
    var (fin a) (fin c) (fin s) = .error .valueError ∧ noncentralMoment k (fin a) (fin c) (fin s) = .error .valueError := by
  refine ⟨?_, ?_, ?_⟩ <;> simp [mean, var, noncentralMoment, validate_bad h]

/-- For `a = 1` the series has one term: the Weibull mean. -/
example : mean (fin 1) (fin 1) (fin 2) = .ok (fin 2) := by
  have hz : ∀ i, coef 1 (i + 1) = 0 := fun i => by
    induction i with
    | zero => simp [coef]
    | succ i ih => rw [coef, ih, zero_mul]
  have : S 1 (1 / 1) = 1 := by
    rw [S, tsum_eq_single 0]
    · simp [coef]
    · intro i hi
      obtain ⟨j, rfl⟩ := Nat.exists_eq_succ_of_ne_zero hi
      rw [hz, zero_mul]
  rw [mean_eval one_pos one_pos two_pos, this]
  norm_num [Real.Gamma_two]

end Mpsci.exponweib
