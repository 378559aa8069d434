import Verif.Lemmas.GompertzInt
import Verif.Lemmas.Int01More
import Verif.Lemmas.Dist.Gompertz

/-! Mean, variance and entropy of `gompertz`. -/

namespace Mpsci.gompertz

open Classical Num Spec common Set MeasureTheory

variable {c s : ℝ}

theorem int01_Q (hc : 0 < c) : Int01 (Q c) (Real.exp c * e1R c) := (int01_log hc).reflect

theorem int01_Q2 (hc : 0 < c) : Int01 (fun p => Q c p ^ 2) (Real.exp c * (-2 * c * hyp3f3R (-c) +
    Real.eulerMascheroniConstant ^ 2 + Real.pi ^ 2 / 6 + 2 * Real.eulerMascheroniConstant * Real.log c + Real.log c ^ 2)) :=
  (int01_log_sq hc).reflect

theorem F_aff (hc : 0 < c) (hs : 0 < s) (p : ℝ) (h0 : 0 < p) (h1 : p < 1) : (fun x => F c (x / s)) (0 + s * Q c p) = p := by
  simp only [zero_add, mul_div_cancel_left₀ _ hs.ne']; exact (F_Q hc hs h0 h1).2

/-- C37 -/
theorem isMean (hc : 0 < c) (hs : 0 < s) : IsMean ∅ (pdf · (fin c) (fin s)) (mean (fin c) (fin s)) := by
  refine (hasMV_of_affine (isDist hc hs) (F_aff hc hs) (int01_Q hc) (int01_Q2 hc)).isMean finite_empty (fun x _ => pdf_eval hc hs x) ?_
  simp only [mean, validate_ok hc hs, ok_bind, mp.exp_fin, fin_mul, mp.e1_pos hc, pure_eq_ok]
  congr 2; ring

/-- C37 -/
theorem isVar (hc : 0 < c) (hs : 0 < s) : IsVar ∅ (pdf · (fin c) (fin s)) (var (fin c) (fin s)) := by
  refine (hasMV_of_affine (isDist hc hs) (F_aff hc hs) (int01_Q hc) (int01_Q2 hc)).isVar finite_empty (fun x _ => pdf_eval hc hs x) ?_
  simp only [var, validate_ok hc hs, ok_bind, mp.log_pos hc, mp.exp_fin, neg_fin, mp.hyp3f3_fin, ofNat_def, mp.euler_def, mp.pi_def, mp.ipow_fin,
    fin_div _ (show (6:ℝ) ≠ 0 by norm_num), mp.e1_pos hc, fin_mul, fin_add, fin_sub, pure_eq_ok]
  congr 2; ring

/-- C37 -/
theorem isEntropy (hc : 0 < c) (hs : 0 < s) : IsEntropy ∅ (pdf · (fin c) (fin s)) (entropy (fin c) (fin s)) := by
  have h := ((Int01.const (-Real.log c)).sub (int01_Q hc)).sub int01_log1m
  have h2 : Int01 (fun p => -Real.log (f c (Q c p))) (-Real.log c - Real.exp c * e1R c - -1) := h.congr fun p h0 h1 => by
    have h3 := log_arg_pos hc h0 h1
    have hQ : ¬ Q c p < 0 := not_lt.2 (F_Q hc one_pos h0 h1).1.le
    have e : Real.exp (Q c p) = 1 + -Real.log (1 - p) / c := by rw [Q, Real.exp_log (by linarith)]
    rw [f, if_neg hQ, Real.log_mul hc.ne' (Real.exp_ne_zero _), Real.log_exp, e]
    field_simp; ring
  refine ((HasEnt.of_int01 (isDist_std hc) (fun p h0 h1 => (F_Q hc one_pos h0 h1).2) h2).scale hs fun z => ?_).isEntropy finite_empty
    (fun x _ => pdf_eval hc hs x) ?_
  · by_cases hz : z < 0
    · rw [f, if_pos hz]
    · exact (f_pos hc hz).le
  · simp only [entropy, validate_ok hc hs, ok_bind, one_def, mp.log_pos hc, mp.log_pos hs, mp.exp_fin, mp.e1_pos hc, fin_mul, fin_sub, fin_add, pure_eq_ok]
    congr 2; ring

/-- C37: bad parameters are rejected -/
theorem moments_validate (h : ¬ (0 < c ∧ 0 < s)) : mean (fin c) (fin s) = .error .valueError ∧ var (fin c) (fin s) = .error .valueError ∧
    entropy (fin c) (fin s) = .error .valueError := by
  refine ⟨?_, ?_, ?_⟩ <;> simp [mean, var, entropy, validate_bad h]

example : mean (fin 1) (fin 2) = .ok (fin (2 * Real.exp 1 * e1R 1)) := by
  simp only [mean, validate_ok (one_pos (α := ℝ)) (two_pos (α := ℝ)), ok_bind, mp.exp_fin, fin_mul, mp.e1_pos (one_pos (α := ℝ)), pure_eq_ok]

end Mpsci.gompertz
