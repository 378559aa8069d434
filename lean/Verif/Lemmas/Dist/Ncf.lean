import Verif.Lemmas.NcBetaPrime
import Verif.Lemmas.Dist.F
import Verif.Model.Dist.Noncentral

/-! Evaluation of the model of `ncf`: a noncentral beta prime variable with parameters `dfn/2`, `dfd/2`, `nc/2`, times `dfd/dfn`. -/

namespace Mpsci.ncf

open Classical Num Spec Filter Topology MeasureTheory Set

variable {n d c x : ℝ}

theorem two_ne : (2:ℝ) ≠ 0 := two_ne_zero

noncomputable def F (n d c x : ℝ) : ℝ := nbp.C (n / 2) (d / 2) (c / 2) (x / (d / n))
noncomputable def f (n d c x : ℝ) : ℝ := nbp.p (n / 2) (d / 2) (c / 2) (x / (d / n)) / (d / n)

/-- The left end of the support, where the density does not vanish for `dfn ≤ 2`. -/
def E (n : ℝ) : Set ℝ := {x | x = 0 ∧ n ≤ 2}
theorem E_finite : (E n).Finite := Set.Finite.subset (toFinite {0}) fun _ h => h.1

theorem isDist (hn : 0 < n) (hd : 0 < d) (hc : 0 ≤ c) : IsDist (F n d c) (f n d c) :=
  (nbp.isDist (half_pos hn) (half_pos hd) (div_nonneg hc zero_le_two)).scale (div_pos hd hn)

theorem f_nonpos (hn : 0 < n) (hd : 0 < d) (h : x ≤ 0) : f n d c x = 0 := by
  rw [f, nbp.p_nonpos (div_nonpos_of_nonpos_of_nonneg h (div_pos hd hn).le), zero_div]
theorem f_pos (hn : 0 < n) (hd : 0 < d) (hc : 0 ≤ c) (h : 0 < x) : 0 < f n d c x :=
  div_pos (nbp.p_pos (half_pos hn) (half_pos hd) (div_nonneg hc zero_le_two) (div_pos h (div_pos hd hn))) (div_pos hd hn)
theorem F_nonpos (hn : 0 < n) (hd : 0 < d) (h : x ≤ 0) : F n d c x = 0 :=
  nbp.C_nonpos (div_nonpos_of_nonpos_of_nonneg h (div_pos hd hn).le)

theorem coeff (hc : 0 < c) (k : ℕ) : Real.exp (k * Real.log (c / 2) + (-(c / 2) + -Real.log (Real.Gamma (k + 1)))) = ncg.w (c / 2) k := by
  have h := half_pos hc
  have hk : (0:ℝ) < k.factorial := by exact_mod_cast k.factorial_pos
  rw [Real.Gamma_nat_eq_factorial, Real.exp_add, Real.exp_add, Real.exp_neg (Real.log _), Real.exp_log hk, mul_comm (k:ℝ), Real.exp_mul, Real.exp_log h,
    Real.rpow_natCast, ncg.w]
  ring

theorem cdfTerm_eval (hn : 0 < n) (hd : 0 < d) (hc : 0 < c) (hx : 0 ≤ x) (k : ℕ) :
    cdfTerm k (fin x) (fin n) (fin d) (fin c) = .ok (fin (ncg.w (c / 2) k * bpD.F (n / 2 + k) (d / 2) (x / (d / n)))) := by
  have hz : 0 ≤ x / (d / n) := by positivity
  have hq : d + n * x ≠ 0 := by positivity
  have e : n * x / (d + n * x) = bpD.u (x / (d / n)) := by
    rw [bpD.u]; field_simp
  have e0 := bpD.u_nonneg hz
  have e1 := (bpD.u_lt_one hz).le
  have hk : (0:ℝ) < (k:ℝ) + 1 := by positivity
  simp only [cdfTerm, ofNat_def, Nat.cast_ofNat, fin_div _ two_ne, ok_bind, mp.log_pos (half_pos hc), one_def, fin_add, mp.loggamma_pos hk, fin_mul, neg_fin,
    mp.fsum_cons, mp.fsum_nil, mp.exp_fin, fin_div _ hq, e, zero_def, add_zero,
    mp.betaincReg_fin (nbp.aj (half_pos hn) k) (half_pos hd) le_rfl zero_le_one e0 e1, coeff hc k, bpD.F_nonneg_arg hz, betaD.P, pure_eq_ok]

theorem cdf_eval (hn : 0 < n) (hd : 0 < d) (hc : 0 < c) (x : ℝ) : cdf (fin x) (fin n) (fin d) (fin c) = .ok (fin (F n d c x)) := by
  rcases lt_or_ge x 0 with h | h
  · simp [cdf, h, F_nonpos hn hd h.le]
  · simp only [cdf, zero_def, fin_lt, h.not_gt, if_false]
    exact mp.nsum_eq (fun i => by rw [Nat.zero_add]; exact cdfTerm_eval hn hd hc h i)
      (nbp.hasSum_C (half_pos hn) (half_pos hd) (half_pos hc).le _).tendsto_sum_nat

theorem pdfTerm_pos (hn : 0 < n) (hd : 0 < d) (hc : 0 < c) (hx : 0 < x) (k : ℕ) :
    pdfTerm k (fin x) (fin n) (fin d) (fin c) = .ok (fin (ncg.w (c / 2) k * bpD.f (n / 2 + k) (d / 2) (x / (d / n)) / (d / n))) := by
  have hz : 0 < x / (d / n) := by positivity
  have hq : 0 < d + n * x := by positivity
  have hk : (0:ℝ) < (k:ℝ) + 1 := by positivity
  have ha := nbp.aj (half_pos hn) k
  have hb := half_pos hd
  have hw : 0 < ncg.w (c / 2) k := by rw [← coeff hc]; exact Real.exp_pos _
  have hg := bpD.g_pos ha hb hz
  simp only [pdfTerm, ofNat_def, Nat.cast_ofNat, fin_div _ two_ne, ok_bind, mp.log_pos (half_pos hc), one_def, fin_add, mp.loggamma_pos hk, fin_mul, neg_fin,
    fin_sub, fun_.logbeta_pos hb ha, mp.log_pos hn, mp.log_pos hd, mp.log_pos hq, mp.log_pos hx, mp.exp_fin, pure_eq_ok]
  congr 2
  rw [bpD.f_of_nonneg hz.le, ← Real.exp_log (show 0 < ncg.w (c / 2) k * bpD.g (n / 2 + k) (d / 2) (x / (d / n)) / (d / n) by positivity)]
  have e : 1 + x / (d / n) = (d + n * x) / d := by field_simp
  rw [show Real.log (ncg.w (c / 2) k * bpD.g (n / 2 + k) (d / 2) (x / (d / n)) / (d / n)) = _ from Real.log_div (by positivity) (by positivity),
    Real.log_mul hw.ne' hg.ne', bpD.log_g ha hb hz, ← coeff hc, Real.log_exp, e, betaD.betaFn_symm (d / 2),
    Real.log_div hx.ne' (by positivity : d / n ≠ 0), Real.log_div hd.ne' hn.ne', Real.log_div hq.ne' hd.ne']
  congr 1; ring

theorem pdfTerm_zero (hn : 2 < n) (hd : 0 < d) (hc : 0 < c) (k : ℕ) : pdfTerm k (fin 0) (fin n) (fin d) (fin c) = .ok (fin 0) := by
  have hk : (0:ℝ) < (k:ℝ) + 1 := by positivity
  have hn0 : 0 < n := by linarith
  have ha := nbp.aj (half_pos hn0) k
  have h1 : 0 < n / 2 - 1 + k := by have : (0:ℝ) ≤ k := k.cast_nonneg; linarith
  simp only [pdfTerm, ofNat_def, Nat.cast_ofNat, fin_div _ two_ne, ok_bind, mp.log_pos (half_pos hc), one_def, fin_add, mp.loggamma_pos hk, fin_mul, neg_fin,
    fin_sub, fun_.logbeta_pos (half_pos hd) ha, mp.log_pos hn0, mp.log_pos hd, mul_zero, add_zero, mp.log_zero, fin_mul_ninf, scaleInf_pos h1,
    fin_add_ninf, mp.exp_ninf, pure_eq_ok]

theorem pdf_pos (hn : 0 < n) (hd : 0 < d) (hc : 0 < c) (h : 0 < x) : pdf (fin x) (fin n) (fin d) (fin c) = .ok (fin (f n d c x)) := by
  simp only [pdf, zero_def, fin_lt, h.not_gt, if_false]
  refine mp.nsum_eq (fun i => by rw [Nat.zero_add]; exact pdfTerm_pos hn hd hc h i) ?_
  exact ((nbp.hasSum_p (half_pos hn) (half_pos hd) (half_pos hc).le (div_pos h (div_pos hd hn))).div_const _).tendsto_sum_nat
theorem pdf_zero (hn : 2 < n) (hd : 0 < d) (hc : 0 < c) : pdf (fin 0) (fin n) (fin d) (fin c) = .ok (fin 0) := by
  simp only [pdf, zero_def, fin_lt, lt_irrefl, if_false]
  exact mp.nsum_eq (fun i => by rw [Nat.zero_add]; exact pdfTerm_zero hn hd hc i) (by simp)
theorem pdf_neg (n d c : Num) (h : x < 0) : pdf (fin x) n d c = .ok (fin 0) := by simp [pdf, h]
theorem pdf_eval (hn : 0 < n) (hd : 0 < d) (hc : 0 < c) (hx : x ∉ E n) : pdf (fin x) (fin n) (fin d) (fin c) = .ok (fin (f n d c x)) := by
  rcases lt_trichotomy x 0 with h | rfl | h
  · rw [pdf_neg _ _ _ h, f_nonpos hn hd h.le]
  · rw [f_nonpos hn hd le_rfl, pdf_zero (not_le.1 fun h => hx ⟨rfl, h⟩) hd hc]
  · exact pdf_pos hn hd hc h

theorem mean_eval (hn : 0 < n) (hd : 2 < d) : mean (fin n) (fin d) (fin c) = .ok (fin (d * (n + c) / n / (d - 2))) := by
  simp only [mean, ofNat_def, Nat.cast_ofNat, fin_le, hd.not_ge, if_false, fin_add, fin_mul, fin_div _ hn.ne', ok_bind, fin_sub,
    fin_div _ (show d - 2 ≠ 0 by linarith)]
theorem var_eval (hn : 0 < n) (hd : 4 < d) : var (fin n) (fin d) (fin c) =
    .ok (fin (2 * ((n + c) ^ 2 + (n + 2 * c) * (d - 2)) / ((d - 2) ^ 2 * (d - 4)) * (d / n) ^ 2)) := by
  have h1 : 0 < d - 2 := by linarith
  have h2 : 0 < d - 4 := by linarith
  simp only [var, ofNat_def, Nat.cast_ofNat, fin_le, hd.not_ge, if_false, fin_add, fin_mul, fin_div _ hn.ne', ok_bind, fin_sub, mp.ipow_fin,
    fin_div _ (show (d - 2) ^ 2 * (d - 4) ≠ 0 by positivity), pure_eq_ok]

theorem hasM (hn : 0 < n) (hd : 2 < d) (hc : 0 ≤ c) : HasM (f n d c) (d * (n + c) / n / (d - 2)) := by
  have hD := nbp.isDist (half_pos hn) (half_pos (by linarith : 0 < d)) (div_nonneg hc zero_le_two)
  have h := nbp.mean (half_pos hn) (div_nonneg hc zero_le_two) (show 1 < d / 2 by linarith)
  have h2 := HasM.scale ⟨hD.integrable, hD.integral_one, h.1, h.2⟩ (div_pos (by linarith : 0 < d) hn)
  have h1 : d - 2 ≠ 0 := by linarith
  rw [show d / n * ((n / 2 + c / 2) / (d / 2 - 1)) = d * (n + c) / n / (d - 2) by
    rw [show d / 2 - 1 = (d - 2) / 2 by ring]; field_simp] at h2
  exact h2

theorem hasMV (hn : 0 < n) (hd : 4 < d) (hc : 0 ≤ c) : HasMV (f n d c) (d * (n + c) / n / (d - 2))
    (2 * ((n + c) ^ 2 + (n + 2 * c) * (d - 2)) / ((d - 2) ^ 2 * (d - 4)) * (d / n) ^ 2) := by
  have h := (nbp.hasMV (half_pos hn) (div_nonneg hc zero_le_two) (show 2 < d / 2 by linarith)).scale (div_pos (by linarith : 0 < d) hn)
  have h1 : d - 2 ≠ 0 := by linarith
  have h2 : d - 4 ≠ 0 := by linarith
  rw [show d / n * ((n / 2 + c / 2) / (d / 2 - 1)) = d * (n + c) / n / (d - 2) by
      rw [show d / 2 - 1 = (d - 2) / 2 by ring]; field_simp,
    show (d / n) ^ 2 * (((n / 2 + c / 2) ^ 2 + (n / 2 + 2 * (c / 2)) * (d / 2 - 1)) / ((d / 2 - 1) ^ 2 * (d / 2 - 2))) =
        2 * ((n + c) ^ 2 + (n + 2 * c) * (d - 2)) / ((d - 2) ^ 2 * (d - 4)) * (d / n) ^ 2 by
      rw [show d / 2 - 1 = (d - 2) / 2 by ring, show d / 2 - 2 = (d - 4) / 2 by ring]; field_simp] at h
  exact h

/-- There is no moment of order at least `dfd/2`. -/
theorem not_moment (hn : 0 < n) (hd : 0 < d) (hc : 0 ≤ c) (k : ℕ) (hk : d / 2 ≤ k) (m : ℝ) : ¬ Integrable fun x => (x - m) ^ k * f n d c x := by
  intro h
  have h1 := (isDist hn hd hc).shift_moment h 0
  have hs : 0 < d / n := div_pos hd hn
  refine nbp.not_moment (half_pos hn) (half_pos hd) (div_nonneg hc zero_le_two) k hk ?_
  have h2 := (h1.comp_mul_left' hs.ne').const_mul ((d / n) * ((d / n) ^ k)⁻¹)
  refine h2.congr (Eventually.of_forall fun z => ?_)
  simp only [f, sub_zero, mul_pow, mul_div_cancel_left₀ z hs.ne']
  have := pow_ne_zero k hs.ne'
  field_simp

end Mpsci.ncf
