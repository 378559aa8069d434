import Verif.Model.Dist.F
import Verif.Lemmas.Dist.BetaPrime

/-! Evaluation of the model of `f`: the beta prime distribution with parameters `dfn/2`, `dfd/2` and scale `dfd/dfn`. -/

namespace Mpsci.fdist

open Classical Num Spec common Set

variable {k l : ℝ}

theorem validate_ok (hk : 0 < k) (hl : 0 < l) : validateParams (fin k) (fin l) = .ok (fin k, fin l) := by
  simp [validateParams, hk.not_ge, hl.not_ge]
theorem validate_bad (h : ¬ (0 < k ∧ 0 < l)) : validateParams (fin k) (fin l) = .error .valueError := by
  by_cases h1 : k ≤ 0
  · simp [validateParams, h1]
  · have h2 : l ≤ 0 := by
      by_contra hl; exact h ⟨not_le.1 h1, not_le.1 hl⟩
    simp [validateParams, h1, h2]

/-- Where the density does not vanish at the end of the support (it is infinite for `dfn < 2`), and `pdf` returns 0. -/
def E (k : ℝ) : Set ℝ := {x | x = 0 ∧ k ≤ 2}
theorem E_finite : (E k).Finite := Set.Finite.subset (toFinite {0}) fun _ h => h.1

noncomputable def F (k l x : ℝ) : ℝ := bpD.F (k / 2) (l / 2) (x / (l / k))
noncomputable def f (k l x : ℝ) : ℝ := bpD.f (k / 2) (l / 2) (x / (l / k)) / (l / k)

theorem two_ne : (2:ℝ) ≠ 0 := two_ne_zero

theorem u_eq (hk : 0 < k) (hl : 0 < l) {x : ℝ} (hx : 0 < x) : k * x / (k * x + l) = bpD.u (x / (l / k)) := by
  rw [bpD.u]; field_simp; ring

theorem cdf_eval (hk : 0 < k) (hl : 0 < l) (x : ℝ) : cdf (fin x) (fin k) (fin l) = .ok (fin (F k l x)) := by
  rcases le_or_gt x 0 with h | h
  · simp [cdf, validate_ok hk hl, h, F, bpD.F_nonpos (div_nonpos_of_nonpos_of_nonneg h (div_pos hl hk).le)]
  · have hz : 0 < x / (l / k) := by positivity
    have hd : k * x + l ≠ 0 := by positivity
    have e0 := bpD.u_nonneg hz.le
    have e1 := (bpD.u_lt_one hz.le).le
    rw [← u_eq hk hl h] at e0 e1
    simp only [cdf, validate_ok hk hl, ok_bind, zero_def, fin_le, h.not_ge, if_false, fin_mul, fin_add, fin_div _ hd, ofNat_def, fin_div _ two_ne,
      mp.betaincReg_fin (half_pos hk) (half_pos hl) le_rfl zero_le_one e0 e1]
    rw [F, bpD.F_pos hz, betaD.P, u_eq hk hl h]

theorem sf_eval (hk : 0 < k) (hl : 0 < l) (x : ℝ) : sf (fin x) (fin k) (fin l) = .ok (fin (1 - F k l x)) := by
  rcases le_or_gt x 0 with h | h
  · simp [sf, validate_ok hk hl, h, F, bpD.F_nonpos (div_nonpos_of_nonpos_of_nonneg h (div_pos hl hk).le)]
  · have hz : 0 < x / (l / k) := by positivity
    have hd : k * x + l ≠ 0 := by positivity
    have e0 := bpD.u_nonneg hz.le
    have e1 := (bpD.u_lt_one hz.le).le
    have hu := betaD.upper (half_pos hk) (half_pos hl) e0 e1
    rw [← u_eq hk hl h] at e0 e1 hu
    simp only [sf, validate_ok hk hl, ok_bind, zero_def, one_def, fin_le, h.not_ge, if_false, fin_mul, fin_add, fin_div _ hd, ofNat_def,
      fin_div _ two_ne, mp.betaincReg_fin (half_pos hk) (half_pos hl) e0 e1 zero_le_one le_rfl]
    rw [F, bpD.F_pos hz, hu, u_eq hk hl h]

theorem f_nonneg (hk : 0 < k) (hl : 0 < l) (x : ℝ) : 0 ≤ f k l x :=
  div_nonneg (bpD.f_nonneg (half_pos hk) (half_pos hl) _) (div_pos hl hk).le
theorem f_pos (hk : 0 < k) (hl : 0 < l) {x : ℝ} (hx : 0 < x) : 0 < f k l x := by
  have hz : 0 < x / (l / k) := by positivity
  refine div_pos ?_ (div_pos hl hk)
  rw [bpD.f_of_nonneg hz.le]; exact bpD.g_pos (half_pos hk) (half_pos hl) hz
theorem f_neg (hk : 0 < k) (hl : 0 < l) {x : ℝ} (hx : x < 0) : f k l x = 0 := by
  rw [f, bpD.f_neg (div_neg_of_neg_of_pos hx (div_pos hl hk)), zero_div]
theorem f_zero (hk : 2 < k) : f k l 0 = 0 := by
  rw [f, zero_div, betaprime.f_zero (by linarith), zero_div]

theorem pdf_pos (hk : 0 < k) (hl : 0 < l) {x : ℝ} (h : 0 < x) : pdf (fin x) (fin k) (fin l) = .ok (fin (f k l x)) := by
  have hz : 0 < x / (l / k) := by positivity
  have hr : 0 < k / l := by positivity
  have h1 : 0 < 1 + k / l * x := by positivity
  have e : x / (l / k) = k / l * x := by field_simp
  simp only [pdf, validate_ok hk hl, ok_bind, zero_def, one_def, fin_le, h.not_ge, if_false, fin_div _ hl.ne', ofNat_def, fin_div _ two_ne,
    fin_sub, fin_mul, fin_add, neg_fin, mp.power_pos hr, mp.power_pos h, mp.power_pos h1, mp.beta_fin (half_pos hk) (half_pos hl),
    fin_div _ (betaFn_pos (half_pos hk) (half_pos hl)).ne']
  congr 2
  rw [f, bpD.f_of_nonneg hz.le, bpD.g, e, Real.rpow_neg h1.le, Real.mul_rpow hr.le h.le, Real.rpow_sub_one hr.ne']
  have := (betaFn_pos (half_pos hk) (half_pos hl)).ne'
  have := (Real.rpow_pos_of_pos h1 (k / 2 + l / 2)).ne'
  field_simp
theorem pdf_nonpos (hk : 0 < k) (hl : 0 < l) {x : ℝ} (h : x ≤ 0) : pdf (fin x) (fin k) (fin l) = .ok (fin 0) := by
  simp [pdf, validate_ok hk hl, h]
theorem pdf_eval (hk : 0 < k) (hl : 0 < l) {x : ℝ} (hx : x ∉ E k) : pdf (fin x) (fin k) (fin l) = .ok (fin (f k l x)) := by
  rcases lt_trichotomy x 0 with h | rfl | h
  · rw [pdf_nonpos hk hl h.le, f_neg hk hl h]
  · rw [pdf_nonpos hk hl le_rfl, f_zero]
    exact not_le.1 fun h => hx ⟨rfl, h⟩
  · exact pdf_pos hk hl h

theorem logpdf_pos (hk : 0 < k) (hl : 0 < l) {x : ℝ} (h : 0 < x) : logpdf (fin x) (fin k) (fin l) = .ok (fin (Real.log (f k l x))) := by
  have hz : 0 < x / (l / k) := by positivity
  have hrx : 0 < k / l * x := by positivity
  have e : x / (l / k) = k / l * x := by field_simp
  rw [f, bpD.f_of_nonneg hz.le, Real.log_div (bpD.g_pos (half_pos hk) (half_pos hl) hz).ne' (div_pos hl hk).ne', bpD.log_g (half_pos hk) (half_pos hl) hz,
    e]
  simp only [logpdf, validate_ok hk hl, ok_bind, zero_def, one_def, fin_le, h.not_ge, if_false, fin_div _ hl.ne', ofNat_def, fin_div _ two_ne,
    mp.log_pos hk, mp.log_pos hl, fin_sub, fin_mul, fin_add, fun_.xlogy_eval h, fun_.xlog1py_eval (show -1 < k / l * x by linarith),
    fun_.logbeta_pos (half_pos hk) (half_pos hl), pure_eq_ok]
  rw [Real.log_mul (div_pos hk hl).ne' h.ne', Real.log_div hk.ne' hl.ne', Real.log_div hl.ne' hk.ne']
  congr 2; ring
theorem logpdf_nonpos (hk : 0 < k) (hl : 0 < l) {x : ℝ} (h : x ≤ 0) : logpdf (fin x) (fin k) (fin l) = .ok ninf := by
  simp [logpdf, validate_ok hk hl, h]

theorem isDist (hk : 0 < k) (hl : 0 < l) : IsDist (F k l) (f k l) := betaprime.isDist (half_pos hk) (half_pos hl) (div_pos hl hk)

theorem mean_eval (hk : 0 < k) (hl : 2 < l) : mean (fin k) (fin l) = .ok (fin (l / (l - 2))) := by
  have h : l - 2 ≠ 0 := by linarith
  simp only [mean, validate_ok hk (by linarith : 0 < l), ok_bind, ofNat_def, gt_iff, fin_lt, hl, if_true, fin_sub, fin_div _ h]
theorem var_eval (hk : 0 < k) (hl : 4 < l) :
    var (fin k) (fin l) = .ok (fin (2 * l ^ 2 * (k + l - 2) / (k * (l - 2) ^ 2 * (l - 4)))) := by
  have h1 : 0 < l - 2 := by linarith
  have h2 : 0 < l - 4 := by linarith
  have h : k * (l - 2) ^ 2 * (l - 4) ≠ 0 := by positivity
  simp only [var, validate_ok hk (by linarith : 0 < l), ok_bind, ofNat_def, gt_iff, fin_lt, hl, if_true, fin_sub, fin_add, fin_mul, mp.ipow_fin,
    fin_div _ h]
theorem mode_eval (hk : 2 < k) (hl : 0 < l) : mode (fin k) (fin l) = .ok (fin ((k - 2) / k * (l / (l + 2)))) := by
  have h : l + 2 ≠ 0 := by linarith
  have hk0 : k ≠ 0 := by linarith
  simp only [mode, validate_ok (by linarith : 0 < k) hl, ok_bind, ofNat_def, fin_le, hk.not_ge, if_false, fin_sub, fin_add, fin_mul,
    fin_div _ h, fin_div _ hk0, pure_eq_ok]
theorem entropy_eval (hk : 0 < k) (hl : 0 < l) : entropy (fin k) (fin l) =
    .ok (fin (Real.log (betaFn (k / 2) (l / 2)) + (1 - k / 2) * psi (k / 2) - (1 + l / 2) * psi (l / 2) + (k / 2 + l / 2) * psi (k / 2 + l / 2)
      + Real.log (l / k))) := by
  simp only [entropy, validate_ok hk hl, ok_bind, one_def, ofNat_def, fin_div _ two_ne, fin_div _ hk.ne', mp.log_pos (div_pos hl hk),
    fun_.logbeta_pos (half_pos hk) (half_pos hl), mp.digamma_pos (half_pos hk), mp.digamma_pos (half_pos hl), fin_add,
    mp.digamma_pos (add_pos (half_pos hk) (half_pos hl)), fin_sub, fin_mul, pure_eq_ok]
  congr 2; ring

end Mpsci.fdist
