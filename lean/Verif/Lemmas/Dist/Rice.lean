import Verif.Lemmas.Dist.Ncx2
import Verif.Lemmas.Kummer
import Verif.Lemmas.RiceMode

/-! Evaluation of the model of `rice`. -/

namespace Mpsci.rice

open Classical Num Spec Filter Topology MeasureTheory Set

variable {ν s x : ℝ}

theorem two_ne : (2:ℝ) ≠ 0 := two_ne_zero

theorem validate_ok (hν : 0 ≤ ν) (hs : 0 < s) : validateParams (fin ν) (fin s) = .ok (fin ν, fin s) := by
  simp [validateParams, hν.not_gt, hs.not_ge]
theorem validate_bad (h : ¬ (0 ≤ ν ∧ 0 < s)) : validateParams (fin ν) (fin s) = .error .valueError := by
  by_cases h1 : ν < 0
  · simp [validateParams, h1]
  · have h2 : s ≤ 0 := not_lt.1 fun h3 => h ⟨not_lt.1 h1, h3⟩
    simp [validateParams, h1, h2]

noncomputable def F (ν s x : ℝ) : ℝ := mq.F 1 (ν / s) (x / s)
noncomputable def f (ν s x : ℝ) : ℝ := mq.f 1 (ν / s) (x / s) / s

theorem isDist (ν : ℝ) (hs : 0 < s) : IsDist (F ν s) (f ν s) := (mq.isDist one_pos (ν / s)).scale hs

theorem F_nonpos (hs : 0 < s) (h : x ≤ 0) : F ν s x = 0 := mq.F_nonpos (div_nonpos_of_nonpos_of_nonneg h hs.le)
theorem f_nonpos (hs : 0 < s) (h : x ≤ 0) : f ν s x = 0 := by rw [f, mq.f_nonpos (div_nonpos_of_nonpos_of_nonneg h hs.le), zero_div]
theorem f_pos (hs : 0 < s) (h : 0 < x) : 0 < f ν s x := div_pos (mq.f_pos one_pos _ (div_pos h hs)) hs
theorem f_eq (hs : 0 < s) (h : 0 < x) : f ν s x = den ν s x / s ^ 2 := by
  have hz : 0 < x / s := div_pos h hs
  rw [f, mq.f, if_neg (not_le.2 hz), ncg.p_pos' (by positivity), sub_self, Real.rpow_zero, mul_one, den,
    show (ν / s) ^ 2 / 2 * ((x / s) ^ 2 / 2) = (ν / s ^ 2 * x / 2) ^ 2 by field_simp,
    show -((ν / s) ^ 2 / 2) - (x / s) ^ 2 / 2 = -(x ^ 2 + ν ^ 2) / (2 * s ^ 2) by field_simp; ring]
  field_simp

theorem besseli0 {t : ℝ} (ht : 0 ≤ t) : mp.besseliR 0 (fin t) = .ok (fin (wrightR 1 1 ((t / 2) ^ 2))) := by
  rcases ht.eq_or_lt with rfl | ht
  · simp [mp.besseliR, zero_def, one_def, wright_zero]
  · rw [zero_def, mp.besseliR_pos _ ht, besselIR_eq _ ht]; simp
theorem besseli0' {t : ℝ} (ht : 0 ≤ t) : mp.besseliR (fin 0) (fin t) = .ok (fin (wrightR 1 1 ((t / 2) ^ 2))) := besseli0 ht
theorem besseli1 {t : ℝ} (ht : 0 ≤ t) : mp.besseliR 1 (fin t) = .ok (fin (t / 2 * wrightR 1 2 ((t / 2) ^ 2))) := by
  rcases ht.eq_or_lt with rfl | ht
  · simp [mp.besseliR, one_def, zero_def]
  · rw [one_def, mp.besseliR_pos _ ht, besselIR_eq _ ht, Real.rpow_one]; norm_num

theorem cdf_eval (hν : 0 ≤ ν) (hs : 0 < s) (x : ℝ) : cdf (fin x) (fin ν) (fin s) = .ok (fin (F ν s x)) := by
  rcases le_or_gt x 0 with h | h
  · simp [cdf, validate_ok hν hs, h, F_nonpos hs h]
  · have := mq.cmarcumq_eval one_pos (div_nonneg hν hs.le) (div_pos h hs).le
    simp only [cdf, validate_ok hν hs, ok_bind, zero_def, one_def, fin_le, h.not_ge, if_false, fin_div _ hs.ne', this, F]
theorem sf_eval (hν : 0 ≤ ν) (hs : 0 < s) (x : ℝ) : sf (fin x) (fin ν) (fin s) = .ok (fin (1 - F ν s x)) := by
  rcases le_or_gt x 0 with h | h
  · simp [sf, validate_ok hν hs, h, F_nonpos hs h]
  · have := mq.marcumq_eval one_pos (div_nonneg hν hs.le) (div_pos h hs).le
    simp only [sf, validate_ok hν hs, ok_bind, zero_def, one_def, fin_le, h.not_ge, if_false, fin_div _ hs.ne', this, F]

theorem pdf_eval (hν : 0 ≤ ν) (hs : 0 < s) (x : ℝ) : pdf (fin x) (fin ν) (fin s) = .ok (fin (f ν s x)) := by
  rcases le_or_gt x 0 with h | h
  · simp [pdf, validate_ok hν hs, h, f_nonpos hs h]
  · have h1 : s ^ 2 ≠ 0 := by positivity
    have h2 : 2 * s ^ 2 ≠ 0 := by positivity
    simp only [pdf, validate_ok hν hs, ok_bind, fin_le, zero_def, h.not_ge, if_false, mp.ipow_fin, fin_div _ h1, fin_add, neg_fin, ofNat_def, fin_mul,
      fin_div _ h2, mp.exp_fin, besseli0' (show 0 ≤ x * ν / s ^ 2 by positivity), pure_eq_ok]
    rw [f_eq hs h, den, show x * ν / s ^ 2 = ν / s ^ 2 * x by ring]
    congr 2; ring
theorem logpdf_pos (hν : 0 ≤ ν) (hs : 0 < s) (h : 0 < x) : logpdf (fin x) (fin ν) (fin s) = .ok (fin (Real.log (f ν s x))) := by
  have h2 : 2 * s ^ 2 ≠ 0 := by positivity
  have h1 : s ^ 2 ≠ 0 := by positivity
  have hW := wright_pos one_pos (sq_nonneg (x * ν / s ^ 2 / 2))
  simp only [logpdf, validate_ok hν hs, ok_bind, fin_le, zero_def, h.not_ge, if_false, mp.ipow_fin, fin_div _ h1, fin_add, ofNat_def, fin_mul,
    fin_div _ h2, mp.log_pos h, mp.log_pos hs, fin_sub, besseli0' (show 0 ≤ x * ν / s ^ 2 by positivity), mp.log_pos hW, pure_eq_ok]
  rw [f_eq hs h, den, show ν / s ^ 2 * x = x * ν / s ^ 2 by ring, Real.log_div (by positivity) h1, Real.log_mul h.ne' (by positivity),
    Real.log_mul (Real.exp_pos _).ne' hW.ne', Real.log_exp, Real.log_pow]
  congr 2; push_cast; ring
theorem logpdf_nonpos (hν : 0 ≤ ν) (hs : 0 < s) (h : x ≤ 0) : logpdf (fin x) (fin ν) (fin s) = .ok ninf := by
  simp [logpdf, validate_ok hν hs, h]

/-! ### Moments -/

theorem hyp_pos (n : ℕ) {l : ℝ} (hl : 0 ≤ l) : 0 < hyp1f1R (-(n:ℝ) / 2) 1 (-l) := by
  have h := kummer (1 + n / 2) l
  rw [show 1 - (1 + (n:ℝ) / 2) = -(n:ℝ) / 2 by ring] at h
  have h0 : 0 < ncg.w l 0 * (rising (1 + (n:ℝ) / 2) 0 / (0 : ℕ).factorial) := by
    simp [ncg.w, rising_zero, Real.exp_pos]
  refine h0.trans_le (le_hasSum h 0 fun k _ => mul_nonneg (ncg.w_nonneg hl k) ?_)
  have := rising_pos (show 0 < 1 + (n:ℝ) / 2 by positivity) k
  positivity

/-- the moments for `sigma = 1` -/
theorem moment_std (n : ℕ) (a : ℝ) : Integrable (fun x => x ^ n * mq.f 1 a x) ∧
    ∫ x, x ^ n * mq.f 1 a x = 2 ^ ((n:ℝ) / 2) * Real.Gamma (1 + n / 2) * hyp1f1R (-(n:ℝ) / 2) 1 (-(a ^ 2 / 2)) := by
  have hl : 0 ≤ a ^ 2 / 2 := by positivity
  have hn : (0:ℝ) ≤ n := n.cast_nonneg
  have hsum : HasSum (fun j : ℕ => ncg.w (a ^ 2 / 2) j * (Real.Gamma (1 + j + (n:ℝ) / 2) / Real.Gamma (1 + j)))
      (Real.Gamma (1 + n / 2) * hyp1f1R (-(n:ℝ) / 2) 1 (-(a ^ 2 / 2))) := by
    have h := (kummer (1 + n / 2) (a ^ 2 / 2)).mul_left (Real.Gamma (1 + n / 2))
    rw [show 1 - (1 + (n:ℝ) / 2) = -(n:ℝ) / 2 by ring] at h
    refine h.congr_fun' fun j => ?_
    rw [show 1 + (j:ℝ) + (n:ℝ) / 2 = (1 + n / 2) + j by ring, Gamma_rising (by positivity), Gamma_rising one_pos, rising_one, Real.Gamma_one]
    ring
  obtain ⟨h1, h2⟩ := ncg.moment one_pos hl (q := (n:ℝ) / 2) (by positivity) hsum
  set g : ℝ → ℝ := fun y => |y| ^ ((n:ℝ) / 2) * ncg.p 1 (a ^ 2 / 2) y with hg
  have hz : ∀ y : ℝ, y < 0 → g y = 0 := fun y hy => by simp only [hg, ncg.p_nonpos hy.le, mul_zero]
  have hz' : ∀ y : ℝ, y < 0 → y ^ n * mq.f 1 a y = 0 := fun y hy => by rw [mq.f_nonpos hy.le, mul_zero]
  obtain ⟨c1, c2⟩ := sq_change g le_rfl
  rw [show (0:ℝ) ^ 2 / 2 = 0 by norm_num] at c1 c2
  have e : ∀ x ∈ Ioi (0:ℝ), 2 ^ ((n:ℝ) / 2) * (x * g (x ^ 2 / 2)) = x ^ n * mq.f 1 a x := fun x hx => by
    have hx' : (0:ℝ) < x := hx
    have : (2:ℝ) ^ ((n:ℝ) / 2) ≠ 0 := (Real.rpow_pos_of_pos two_pos _).ne'
    rw [hg, mq.f, if_neg (not_le.2 hx')]
    simp only
    rw [abs_of_pos (by positivity), Real.div_rpow (by positivity) zero_le_two, ← Real.rpow_natCast x 2, ← Real.rpow_mul hx'.le,
      show ((2:ℕ):ℝ) * ((n:ℝ) / 2) = n by push_cast; ring, Real.rpow_natCast]
    field_simp
  rw [integral_Ioi_of_zero hz] at h2
  constructor
  · exact integrable_of_Ioi hz' (MeasureTheory.IntegrableOn.congr_fun ((c1.1 h1.integrableOn).const_mul _) e measurableSet_Ioi)
  · rw [integral_Ioi_of_zero hz', ← setIntegral_congr_fun measurableSet_Ioi e, integral_const_mul, ← c2, h2]; ring

/-- the moments -/
noncomputable def m (n : ℕ) (ν s : ℝ) : ℝ := s ^ n * (2 ^ ((n:ℝ) / 2) * Real.Gamma (1 + n / 2) * hyp1f1R (-(n:ℝ) / 2) 1 (-((ν / s) ^ 2 / 2)))

theorem moment (n : ℕ) (ν : ℝ) (hs : 0 < s) : Integrable (fun x => x ^ n * f ν s x) ∧ ∫ x, x ^ n * f ν s x = m n ν s := by
  obtain ⟨h1, h2⟩ := moment_std n (ν / s)
  have e : (fun x => x ^ n * f ν s x) = fun x => s ^ n * ((x / s) ^ n * mq.f 1 (ν / s) (x / s)) / s := by
    funext x; rw [f, div_pow]; field_simp
  rw [e]
  refine ⟨((h1.comp_div hs.ne').const_mul _).div_const _, ?_⟩
  rw [integral_div, integral_const_mul, Measure.integral_comp_div (fun x => x ^ n * mq.f 1 (ν / s) x), h2, abs_of_pos hs, smul_eq_mul, m]
  field_simp

theorem noncentralMoment_eval (n : ℕ) (hν : 0 ≤ ν) (hs : 0 < s) : noncentralMoment n (fin ν) (fin s) = .ok (fin (m n ν s)) := by
  have hv : common.validateMomentN (n : ℤ) = .ok n := by simp [common.validateMomentN]
  have h1 : 0 < 1 + (n:ℝ) / 2 := by positivity
  have h2 := hyp_pos n (show 0 ≤ (ν / s) ^ 2 / 2 by positivity)
  rw [show -((ν / s) ^ 2 / 2) = -(ν / s) ^ 2 / 2 by ring] at h2
  rcases Nat.eq_zero_or_pos n with h | h
  · subst h
    have h0 : hyp1f1R 0 1 (-((ν / s) ^ 2 / 2)) = 1 := by
      rw [hyp1f1R, tsum_eq_single 0]
      · simp [rising_zero]
      · intro k hk
        obtain ⟨j, rfl⟩ := Nat.exists_eq_succ_of_ne_zero hk
        have : rising 0 (j + 1) = 0 := Finset.prod_eq_zero (Finset.mem_range.2 (Nat.succ_pos j)) (by simp)
        simp [this]
    simp only [noncentralMoment, hv, validate_ok hν hs, ok_bind, if_true, pure_eq_ok]
    simp [m, h0, one_def]
  · have e : m n ν s = Real.exp (n * Real.log s + (n / 2 * Real.log 2 + (Real.log (Real.Gamma (1 + n / 2)) +
        (Real.log (hyp1f1R (-(n:ℝ) / 2) 1 (-(ν / s) ^ 2 / 2)) + 0)))) := by
      rw [Real.exp_add, Real.exp_add, Real.exp_add, add_zero, Real.exp_log h2, Real.exp_log (Real.Gamma_pos_of_pos h1), mul_comm (n:ℝ), Real.exp_mul,
        Real.exp_log hs, mul_comm ((n:ℝ) / 2), Real.exp_mul, Real.exp_log two_pos, Real.rpow_natCast, m, show -((ν / s) ^ 2 / 2) = -(ν / s) ^ 2 / 2 by ring]
      ring
    simp only [noncentralMoment, hv, validate_ok hν hs, ok_bind, h.ne', if_false, ofNat_def, fin_div _ two_ne, mp.log_pos hs, mp.log_pos two_pos, one_def,
      fin_add, mp.loggamma_pos h1, neg_fin, fin_div _ hs.ne', mp.ipow_fin, mp.hyp1f1_pos _ one_pos, mp.log_pos h2, mp.fsum_cons, mp.fsum_nil, fin_mul,
      mp.exp_fin, pure_eq_ok, e]

theorem mean_eval (hν : 0 ≤ ν) (hs : 0 < s) : mean (fin ν) (fin s) = .ok (fin (m 1 ν s)) := by
  have hp : 0 ≤ Real.pi / 2 := by positivity
  have e : (2:ℝ) ^ (((1:ℕ):ℝ) / 2) * Real.Gamma (1 + (1:ℕ) / 2) = √(Real.pi / 2) := by
    rw [Nat.cast_one, show (1:ℝ) + 1 / 2 = 1 / 2 + 1 by norm_num, Real.Gamma_add_one (by norm_num), Real.Gamma_one_half_eq, ← Real.sqrt_eq_rpow,
      Real.sqrt_div Real.pi_pos.le]
    have h2 : √(2:ℝ) * √2 = 2 := Real.mul_self_sqrt zero_le_two
    have h3 : √(2:ℝ) ≠ 0 := by positivity
    field_simp; nlinarith
  rw [m, pow_one, e]
  simp only [mean, validate_ok hν hs, ok_bind, mp.pi, ofNat_def, fin_div _ two_ne, mp.sqrt_nonneg hp, fin_div _ hs.ne', mp.ipow_fin, neg_fin, mp.laguerre0,
    one_def, mp.hyp1f1_pos _ one_pos, fin_mul, pure_eq_ok]
  rw [show -(0.5:ℝ) = -((1:ℕ):ℝ) / 2 by norm_num, show -((ν / s) ^ 2 / 2) = -(ν / s) ^ 2 / 2 by ring, mul_assoc]
theorem var_eval (hν : 0 ≤ ν) (hs : 0 < s) : var (fin ν) (fin s) = .ok (fin (m 2 ν s - m 1 ν s ^ 2)) := by
  have h2 := noncentralMoment_eval 2 hν hs
  simp only [Nat.cast_ofNat] at h2
  simp only [var, validate_ok hν hs, ok_bind, h2, mean_eval hν hs, mp.ipow_fin, fin_sub, pure_eq_ok]

theorem hasMV (ν : ℝ) (hs : 0 < s) : HasMV (f ν s) (m 1 ν s) (m 2 ν s - m 1 ν s ^ 2) := by
  have h0 := isDist ν hs
  have h1 := moment 1 ν hs
  have h2 := moment 2 ν hs
  simp only [pow_one] at h1
  exact ⟨h0.integrable, h0.integral_one, h1.1, h1.2, h2.1, by rw [h2.2]; ring⟩

/-! ### The mode -/

theorem modeEq_eval (hν : 0 ≤ ν) (hs : 0 < s) (h : 0 < x) : modeEq (fin ν) (fin s) (fin (ν / s ^ 2)) (fin x) = .ok (fin (x ^ 2 * eqR ν s x)) := by
  have hr : 0 ≤ ν / s ^ 2 * x := by positivity
  have hW := (wright_pos one_pos (sq_nonneg (ν / s ^ 2 * x / 2))).ne'
  simp only [modeEq, fin_mul, besseli1 hr, besseli0 hr, ok_bind, fin_div _ hW, fin_add, fin_sub, pure_eq_ok]
  rw [eqR]
  congr 2
  generalize wrightR 1 1 ((ν / s ^ 2 * x / 2) ^ 2) = A at *
  generalize wrightR 1 2 ((ν / s ^ 2 * x / 2) ^ 2) = B at *
  field_simp
  ring

end Mpsci.rice
