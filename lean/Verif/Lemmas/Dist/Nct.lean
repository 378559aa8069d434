import Verif.Model.Dist.Nct
import Verif.Lemmas.NctDist

namespace Mpsci.nct

open Classical Num Filter Topology nctD

variable {v m x : ℝ}

theorem logpZero_eval (hv : 0 < v) (m : ℝ) : logpZero (fin v) (fin m) = .ok (fin (Real.log (f v m 0))) := by
  have h1 : 0 < (v + 1) / 2 := by linarith
  have h2 : 0 < v / 2 := by linarith
  have hg1 := Real.Gamma_pos_of_pos h1
  have hg2 := Real.Gamma_pos_of_pos h2
  have hs := hasSum (m := m) hv 0
  have e : f v m 0 = c v m 0 * Real.Gamma ((v + 1) / 2) := by
    rw [← hs.tsum_eq, tsum_eq_single 0 fun i hi => by simp [term, hi]]
    simp [term]
  have e2 : Real.log (f v m 0) = v / 2 * Real.log v + -m ^ 2 / 2 - (Real.log (Real.Gamma (v / 2)) + Real.log Real.pi / 2) + -((v + 1) / 2) * Real.log v +
      Real.log (Real.Gamma ((v + 1) / 2)) := by
    have hp := Real.sqrt_pos.2 Real.pi_pos
    have hv1 : 0 < v ^ (v / 2) := Real.rpow_pos_of_pos hv _
    have hv2 : 0 < v ^ (-((v + 1) / 2)) := Real.rpow_pos_of_pos hv _
    rw [e, c, show v + (0:ℝ) ^ 2 = v by ring, Real.log_mul (by positivity) hg1.ne', Real.log_mul (by positivity) hv2.ne', Real.log_div (by positivity) (by positivity),
      Real.log_mul hv1.ne' (Real.exp_pos _).ne', Real.log_mul hg2.ne' hp.ne', Real.log_exp, Real.log_rpow hv, Real.log_rpow hv,
      Real.log_sqrt Real.pi_pos.le]
  simp only [logpZero, mp.ipow_fin, neg_fin, ofNat_def, one_def, fin_add, fin_sub, fin_div _ (two_ne_zero (α := ℝ)), ok_bind, mp.pi_def, mp.log_pos Real.pi_pos, mp.log_pos hv,
    mp.loggamma_pos h1, mp.loggamma_pos h2, pure_eq_ok, e2]
  congr 2; ring

theorem log_c (hv : 0 < v) (m x : ℝ) : Real.log (c v m x) = v * Real.log v / 2 - m ^ 2 / 2 - Real.log (Real.Gamma (v / 2)) - Real.log Real.pi / 2 -
    (v + 1) / 2 * Real.log (v + x ^ 2) := by
  have hg2 := Real.Gamma_pos_of_pos (half_pos hv)
  have hp := Real.sqrt_pos.2 Real.pi_pos
  have hx : 0 < v + x ^ 2 := by positivity
  have hv1 : 0 < v ^ (v / 2) := Real.rpow_pos_of_pos hv _
  have hv2 : 0 < (v + x ^ 2) ^ (-((v + 1) / 2)) := Real.rpow_pos_of_pos hx _
  rw [c, Real.log_mul (by positivity) hv2.ne', Real.log_div (by positivity) (by positivity),
      Real.log_mul hv1.ne' (Real.exp_pos _).ne', Real.log_mul hg2.ne' hp.ne', Real.log_exp, Real.log_rpow hv, Real.log_rpow hx,
      Real.log_sqrt Real.pi_pos.le]
  ring
theorem c_pos (hv : 0 < v) (m x : ℝ) : 0 < c v m x := by
  have hg2 := Real.Gamma_pos_of_pos (half_pos hv)
  have := Real.pi_pos
  unfold c; positivity

theorem logc_eval (hv : 0 < v) (m x : ℝ) : logc (fin x) (fin v) (fin m) = .ok (fin (Real.log (c v m x))) := by
  have h2 : 0 < v / 2 := by linarith
  simp only [logc, mp.ipow_fin, ofNat_def, one_def, fin_add, fin_sub, fin_mul, fin_div _ (two_ne_zero (α := ℝ)), ok_bind, mp.pi_def, mp.log_pos Real.pi_pos, mp.log_pos hv,
    mp.loggamma_pos h2, mp.log_pos (show 0 < v + x ^ 2 by positivity), pure_eq_ok, log_c hv]

theorem pdfTerm_eval (hv : 0 < v) (h : x * m ≠ 0) (i : ℕ) : pdfTerm (fin x) (fin v) (fin m) i = .ok (fin (term v m x i)) := by
  have h1 : 0 < (v + i + 1) / 2 := by positivity
  have h3 : (0:ℝ) < i + 1 := by positivity
  have h4 : 0 < v + x ^ 2 := by positivity
  have h5 : 0 < 2 / (v + x ^ 2) := by positivity
  have hg := Real.Gamma_pos_of_pos h1
  have hc : Real.cos (i * (if 0 < x * m then 0 else Real.pi)) * |x * m| ^ i = (x * m) ^ i := by
    split_ifs with hp
    · rw [mul_zero, Real.cos_zero, one_mul, abs_of_pos hp]
    · rw [Real.cos_nat_mul_pi, abs_of_neg (lt_of_le_of_ne (not_lt.1 hp) h), ← mul_pow]; ring
  have e : (if 0 < x * m then (0:Num) else mp.pi) = fin (if 0 < x * m then 0 else Real.pi) := by split_ifs <;> simp
  simp only [pdfTerm, fin_mul, clog, h, if_false, e, mp.ipow_fin, ofNat_def, one_def, fin_add, fin_div _ (two_ne_zero (α := ℝ)), ok_bind, mp.loggamma_pos h1,
    fin_div _ h4.ne', mp.log_pos h5, mp.loggamma_pos h3, fin_sub, mp.exp_fin, mp.cos_fin, pure_eq_ok]
  congr 2
  rw [Real.exp_sub, Real.exp_add, Real.exp_add, Real.exp_log hg, Real.exp_log (Real.Gamma_pos_of_pos h3), Real.Gamma_nat_eq_factorial,
    Real.exp_nat_mul, Real.exp_log (abs_pos.2 h), show (i:ℝ) * Real.log (2 / (v + x ^ 2)) / 2 = Real.log (2 / (v + x ^ 2)) * (i / 2) by ring,
    ← Real.rpow_def_of_pos h5, term, ← hc]
  ring

theorem nsum_eval (hv : 0 < v) (h : x * m ≠ 0) : mp.nsum (pdfTerm (fin x) (fin v) (fin m)) 0 = .ok (fin (f v m x / c v m x)) := by
  have hs := (hasSum (m := m) hv x).div_const (c v m x)
  have hc := (c_pos hv m x).ne'
  refine mp.nsum_eq (u := term v m x) (fun i => by rw [zero_add]; exact pdfTerm_eval hv h i) ?_
  refine HasSum.tendsto_sum_nat (hs.congr_fun fun i => ?_)
  field_simp

theorem logpdf_eval (hv : 0 < v) (hm : m ≠ 0) (x : ℝ) : logpdf (fin x) (fin v) (fin m) = .ok (fin (Real.log (f v m x))) := by
  by_cases hx : x = 0
  · subst hx; simp [logpdf, logpZero_eval hv]
  · have hx' : ¬ (fin x = (0:Num)) := by simpa using hx
    have hc := c_pos hv m x
    have hf := f_pos (m := m) hv x
    simp only [logpdf, hx', if_false, logc_eval hv, ok_bind, nsum_eval hv (mul_ne_zero hx hm), mp.log_pos (div_pos hf hc), fin_add, pure_eq_ok,
      Real.log_div hf.ne' hc.ne', add_sub_cancel]

theorem pdf_eval (hv : 0 < v) (hm : m ≠ 0) (x : ℝ) : pdf (fin x) (fin v) (fin m) = .ok (fin (f v m x)) := by
  have hf := f_pos (m := m) hv x
  by_cases hx : x = 0
  · subst hx; simp [pdf, logpZero_eval hv, Real.exp_log hf]
  · have hx' : ¬ (fin x = (0:Num)) := by simpa using hx
    have hc := c_pos hv m x
    simp only [pdf, hx', if_false, logc_eval hv, ok_bind, nsum_eval hv (mul_ne_zero hx hm), mp.exp_fin, Real.exp_log hc, fin_mul, pure_eq_ok,
      mul_div_cancel₀ _ hc.ne']

end Mpsci.nct
