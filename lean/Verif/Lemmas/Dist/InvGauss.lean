import Verif.Model.Dist.InvGauss
import Verif.Lemmas.InvGaussDist
import Verif.Lemmas.NewtonLoop
import Verif.Lemmas.Helpers
import Verif.Lemmas.Common
import Verif.Lemmas.DistTrans

namespace Mpsci.invgauss

open Classical Num common Filter Topology Set igD

variable {m loc s : ℝ}

theorem validate_ok (hm : 0 < m) (hs : 0 < s) : validateParams (fin m) (fin loc) (fin s) = .ok (fin m, fin loc, fin s) := by
  simp [validateParams, hm.not_ge, hs.not_ge]
theorem validate_bad (h : ¬ (0 < m ∧ 0 < s)) : validateParams (fin m) (fin loc) (fin s) = .error .valueError := by
  by_cases hk : m ≤ 0
  · simp [validateParams, hk]
  have : s ≤ 0 := by
    by_contra hs; exact h ⟨not_le.1 hk, not_le.1 hs⟩
  simp [validateParams, hk, this]

theorem isDist (hm : 0 < m) (hs : 0 < s) : IsDist (fun x => F m ((x - loc) / s)) (fun x => f m ((x - loc) / s) / s) :=
  (igD.isDist hm).affine loc hs

theorem cdf_eval (hm : 0 < m) (hs : 0 < s) (x : ℝ) : cdf (fin x) (fin m) (fin loc) (fin s) = .ok (fin (F m ((x - loc) / s))) := by
  rcases le_or_gt x loc with h | h
  · simp [cdf, validate_ok hm hs, h, F_nonpos ((affine_le_zero hs).2 h)]
  · have hz : 0 < (x - loc) / s := (affine_gt_zero hs).2 h
    have hq := Real.sqrt_pos.2 hz
    simp only [cdf, validate_ok hm hs, ok_bind, fin_le, h.not_ge, if_false, fin_sub, fin_div _ hs.ne', one_def, ofNat_def, fin_div _ hm.ne',
      mp.sqrt_nonneg hz.le, fin_div _ hq.ne', fin_add, neg_fin, mp.ncdf_fin, mp.exp_fin, fin_mul, pure_eq_ok, F_pos hz, a, b]
theorem sf_eval (hm : 0 < m) (hs : 0 < s) (x : ℝ) : sf (fin x) (fin m) (fin loc) (fin s) = .ok (fin (1 - F m ((x - loc) / s))) := by
  rcases le_or_gt x loc with h | h
  · simp [sf, validate_ok hm hs, h, F_nonpos ((affine_le_zero hs).2 h)]
  · have hz : 0 < (x - loc) / s := (affine_gt_zero hs).2 h
    have hq := Real.sqrt_pos.2 hz
    simp only [sf, validate_ok hm hs, ok_bind, fin_le, h.not_ge, if_false, fin_sub, fin_div _ hs.ne', one_def, ofNat_def, fin_div _ hm.ne',
      mp.sqrt_nonneg hz.le, fin_div _ hq.ne', fin_add, neg_fin, mp.ncdf_fin, mp.exp_fin, fin_mul, pure_eq_ok, F_pos hz, a, b]
    rw [neg_div, Phi_neg]; congr 2; ring

theorem logcdf_pos (hm : 0 < m) (hs : 0 < s) {x : ℝ} (h : loc < x) :
    logcdf (fin x) (fin m) (fin loc) (fin s) = .ok (fin (Real.log (F m ((x - loc) / s)))) := by
  have hz : 0 < (x - loc) / s := (affine_gt_zero hs).2 h
  have hq := Real.sqrt_pos.2 hz
  have ha := Phi_pos (a m ((x - loc) / s))
  have hb := Phi_pos (b m ((x - loc) / s))
  have h1 : ∀ t, -1 < Real.exp t := fun t => by linarith [Real.exp_pos t]
  have e : Real.exp (2 / m + Real.log (Phi (b m ((x - loc) / s))) - Real.log (Phi (a m ((x - loc) / s)))) =
      Real.exp (2 / m) * Phi (b m ((x - loc) / s)) / Phi (a m ((x - loc) / s)) := by
    rw [Real.exp_sub, Real.exp_add, Real.exp_log ha, Real.exp_log hb]
  have hn : 0 < 1 + Real.exp (2 / m) * Phi (b m ((x - loc) / s)) / Phi (a m ((x - loc) / s)) := by positivity
  have e2 : F m ((x - loc) / s) = Phi (a m ((x - loc) / s)) *
      (1 + Real.exp (2 / m) * Phi (b m ((x - loc) / s)) / Phi (a m ((x - loc) / s))) := by
    rw [F_pos hz]; field_simp
  rw [e2, Real.log_mul ha.ne' hn.ne', ← e]
  simp only [a, b] at ha hb
  simp only [logcdf, validate_ok hm hs, ok_bind, fin_le, h.not_ge, if_false, fin_sub, fin_div _ hs.ne', one_def, ofNat_def, fin_div _ hm.ne',
    mp.sqrt_nonneg hz.le, fin_div _ hq.ne', fin_add, neg_fin, mp.ncdf_fin, mp.exp_fin, mp.log_pos ha, mp.log_pos hb, mp.log1p_pos (h1 _),
    pure_eq_ok, a, b]
theorem logsf_pos (hm : 0 < m) (hs : 0 < s) {x : ℝ} (h : loc < x) :
    logsf (fin x) (fin m) (fin loc) (fin s) = .ok (fin (Real.log (1 - F m ((x - loc) / s)))) := by
  have hz : 0 < (x - loc) / s := (affine_gt_zero hs).2 h
  have hq := Real.sqrt_pos.2 hz
  have ha := Phi_pos (-a m ((x - loc) / s))
  have hb := Phi_pos (b m ((x - loc) / s))
  have hF := (F_mem hm hz).2
  have e : Real.exp (2 / m + Real.log (Phi (b m ((x - loc) / s))) - Real.log (Phi (-a m ((x - loc) / s)))) =
      Real.exp (2 / m) * Phi (b m ((x - loc) / s)) / Phi (-a m ((x - loc) / s)) := by
    rw [Real.exp_sub, Real.exp_add, Real.exp_log ha, Real.exp_log hb]
  have e2 : 1 - F m ((x - loc) / s) = Phi (-a m ((x - loc) / s)) *
      (1 + -(Real.exp (2 / m) * Phi (b m ((x - loc) / s)) / Phi (-a m ((x - loc) / s)))) := by
    rw [mul_add, mul_neg, mul_div_cancel₀ _ ha.ne', F_pos hz, Phi_neg]; ring
  have hn : 0 < 1 + -(Real.exp (2 / m) * Phi (b m ((x - loc) / s)) / Phi (-a m ((x - loc) / s))) := by
    have : 0 < 1 - F m ((x - loc) / s) := by linarith
    rw [e2] at this
    exact (mul_pos_iff_of_pos_left ha).1 this
  have h1 : -1 < -Real.exp (2 / m + Real.log (Phi (b m ((x - loc) / s))) - Real.log (Phi (-a m ((x - loc) / s)))) := by
    rw [e]; linarith
  rw [e2, Real.log_mul ha.ne' hn.ne', ← e]
  simp only [a, b, ← neg_div] at ha hb h1
  simp only [logsf, validate_ok hm hs, ok_bind, fin_le, h.not_ge, if_false, fin_sub, fin_div _ hs.ne', one_def, ofNat_def, fin_div _ hm.ne',
    mp.sqrt_nonneg hz.le, fin_div _ hq.ne', fin_add, neg_fin, mp.ncdf_fin, mp.exp_fin, mp.log_pos ha, mp.log_pos hb, mp.log1p_pos h1,
    pure_eq_ok, a, b, ← neg_div]

theorem f_pos (_ : 0 < m) (hs : 0 < s) {x : ℝ} (h : loc < x) : 0 < f m ((x - loc) / s) / s :=
  div_pos (igD.f_pos ((affine_gt_zero hs).2 h)) hs
theorem f_zero (_ : 0 < m) (hs : 0 < s) : ∀ x, x ∉ Ioi loc → f m ((x - loc) / s) / s = 0 := fun x hx => by
  rw [f_nonpos ((affine_le_zero hs).2 (not_lt.1 hx)), zero_div]

theorem log2pi_pos : 0 < 2 * Real.pi := by have := Real.pi_pos; positivity

theorem logpdf_pos (hm : 0 < m) (hs : 0 < s) {x : ℝ} (h : loc < x) :
    logpdf (fin x) (fin m) (fin loc) (fin s) = .ok (fin (Real.log (f m ((x - loc) / s) / s))) := by
  have hz : 0 < (x - loc) / s := (affine_gt_zero hs).2 h
  have hz2 : 2 * ((x - loc) / s) ≠ 0 := by positivity
  rw [Real.log_div (igD.f_pos hz).ne' hs.ne', log_f hz]
  simp only [logpdf, validate_ok hm hs, ok_bind, fin_le, h.not_ge, if_false, fin_sub, fin_div _ hs.ne', ofNat_def, fin_div _ hm.ne', mp.ipow_fin,
    mp.pi_def, fin_mul, fin_div _ hz2, mp.log_pos hs, mp.log_pos hz, mp.log_pos log2pi_pos, pure_eq_ok]
  congr 3
  rw [sub_div ((x - loc) / s) m m, div_self hm.ne']
theorem logpdf_low (hm : 0 < m) (hs : 0 < s) {x : ℝ} (h : x ≤ loc) : logpdf (fin x) (fin m) (fin loc) (fin s) = .ok ninf := by
  simp [logpdf, validate_ok hm hs, h]
theorem pdf_eval (hm : 0 < m) (hs : 0 < s) (x : ℝ) : pdf (fin x) (fin m) (fin loc) (fin s) = .ok (fin (f m ((x - loc) / s) / s)) := by
  rcases le_or_gt x loc with h | h
  · simp [pdf, validate_ok hm hs, h, f_zero hm hs x (not_lt.2 h)]
  · have hz : 0 < (x - loc) / s := (affine_gt_zero hs).2 h
    have hq := Real.sqrt_pos.2 hz
    have hz2 : 2 * ((x - loc) / s) ≠ 0 := by positivity
    have hr : 0 < 2 * Real.pi * ((x - loc) / s) ^ 3 := mul_pos log2pi_pos (by positivity)
    have hd : s * √(2 * Real.pi * ((x - loc) / s) ^ 3) ≠ 0 := (mul_pos hs (Real.sqrt_pos.2 hr)).ne'
    simp only [pdf, validate_ok hm hs, ok_bind, fin_le, h.not_ge, if_false, fin_sub, fin_div _ hs.ne', ofNat_def, fin_div _ hm.ne', mp.ipow_fin,
      mp.pi_def, fin_mul, neg_fin, mp.sqrt_nonneg hr.le, fin_div _ hz2, mp.exp_fin, fin_div _ hd, f_of_pos hz]
    congr 2
    generalize (x - loc) / s = z at hz hq
    have hsq := Real.sq_sqrt hz.le
    have e1 : √(2 * Real.pi * z ^ 3) = √(2 * Real.pi) * (z * √z) := by
      rw [Real.sqrt_mul log2pi_pos.le]
      congr 1
      rw [show z ^ 3 = z ^ 2 * z by ring, Real.sqrt_mul (by positivity), Real.sqrt_sq hz.le]
    have e2 : -(((z - m) / m) ^ 2) / (2 * z) = -a m z ^ 2 / 2 := by
      rw [a, div_pow (z / m - 1), hsq]; field_simp
    rw [e1, e2, phi]
    have := Real.sqrt_pos.2 log2pi_pos
    field_simp

theorem pdf_returns (hm : 0 < m) (hs : 0 < s) (x : ℝ) : Spec.Returns (pdf (fin x) (fin m) (fin loc) (fin s)) := ⟨_, pdf_eval hm hs x⟩
theorem logpdf_returns (hm : 0 < m) (hs : 0 < s) (x : ℝ) : Spec.Returns (logpdf (fin x) (fin m) (fin loc) (fin s)) := by
  rcases le_or_gt x loc with h | h
  · exact ⟨_, logpdf_low hm hs h⟩
  · exact ⟨_, logpdf_pos hm hs h⟩

theorem F_Q (hm : 0 < m) (hs : 0 < s) (p : ℝ) (h0 : 0 < p) (h1 : p < 1) : F m ((loc + s * Q m p - loc) / s) = p := by
  rw [add_sub_cancel_left, mul_div_cancel_left₀ _ hs.ne']; exact igD.F_Q hm p h0 h1

theorem mode_eval (hm : 0 < m) (hs : 0 < s) : mode (fin m) (fin loc) (fin s) = .ok (fin (loc + s * mo m)) := by
  have h3 : 0 < 3 * m / 2 := by positivity
  have hne : (3 * m / 2) ^ 2 ≠ 0 := by positivity
  have h1 : -1 < 1 / (3 * m / 2) ^ 2 := by have : 0 < 1 / (3 * m / 2) ^ 2 := by positivity
                                           linarith
  simp only [mode, validate_ok hm hs, ok_bind, one_def, ofNat_def, fin_mul, fin_div _ (two_ne_zero (α := ℝ)), mp.ipow_fin, fin_div _ hne,
    mp.log1p_pos h1, mp.expm1_fin, fin_add, pure_eq_ok]
  congr 2
  rw [mo, add_comm loc]
  congr 2
  have e : Real.exp (Real.log (1 + 1 / (3 * m / 2) ^ 2) / 2) = √(1 + (3 * m / 2) ^ 2) / (3 * m / 2) := by
    have h4 : 0 < 1 + 1 / (3 * m / 2) ^ 2 := by positivity
    rw [← Real.log_sqrt h4.le, Real.exp_log (Real.sqrt_pos.2 h4)]
    rw [show 1 + 1 / (3 * m / 2) ^ 2 = (1 + (3 * m / 2) ^ 2) / (3 * m / 2) ^ 2 by field_simp; ring, Real.sqrt_div (by positivity),
      Real.sqrt_sq h3.le]
  rw [e]; field_simp

/-! ### The Newton steps -/

theorem step_spec (hm : 0 < m) (hs : 0 < s) {eps : ℝ} (he : 0 < eps) {p : ℝ} (h0 : 0 < p) (h1 : p < 1) {step : Num → M Num}
    (hst : ∀ x, loc < x → step (fin x) = .ok (fin (x + (p - F m ((x - loc) / s)) / (f m ((x - loc) / s) / s)))) :
    ∃ y, loc < y ∧ y ∈ uIcc (loc + s * mo m) (loc + s * Q m p) ∧
      Spec.Reaches (fun fuel => newtonLoop eps fuel step (fin (loc + s * mo m))) (fin y) ∧
      |F m ((y - loc) / s) - p| ≤ eps * (f m ((loc + s * mo m - loc) / s) / s) *
        max 1 (max |loc + s * mo m| |loc + s * Q m p|) := by
  have hz : ∀ x : ℝ, loc < x → 0 < (x - loc) / s := fun x h => (affine_gt_zero hs).2 h
  have hle : ∀ x y : ℝ, x ≤ y → (x - loc) / s ≤ (y - loc) / s := fun x y h => div_le_div_of_nonneg_right (by linarith) hs.le
  have hmo : (loc + s * mo m - loc) / s = mo m := by
    rw [add_sub_cancel_left, mul_div_cancel_left₀ _ hs.ne']
  refine newtonLoop_spec (F := fun x => F m ((x - loc) / s)) (f := fun x => f m ((x - loc) / s) / s) (a := loc) he
    (lt_add_of_pos_right _ (mul_pos hs (mo_pos hm))) (lt_add_of_pos_right _ (mul_pos hs (Q_pos p))) ?_ (fun x hx => f_pos hm hs hx) ?_ ?_
    (F_Q hm hs p h0 h1) hst
  · intro x hx
    have h2 : HasDerivAt (fun x : ℝ => (x - loc) / s) (1 / s) x := ((hasDerivAt_id x).sub_const loc).div_const s
    exact (HasDerivAt.comp x (hasDerivAt_F hm (hz x hx)) h2).congr_deriv (by rw [mul_one_div])
  · intro x y hx hxy hy
    refine div_le_div_of_nonneg_right (f_mono hm (hz x hx) (hle x y hxy) ?_) hs.le
    have := hle _ _ hy
    rwa [hmo] at this
  · intro x y hx hxy
    refine div_le_div_of_nonneg_right (f_anti hm (hle x y hxy) ?_) hs.le
    have := hle _ _ hx
    rwa [hmo] at this

/-! ### Moments -/

theorem Y1 (hm : 0 < m) : Int01 (Q m) m := by
  have h := Yn hm 1
  simpa [SM, B, cf] using h
theorem Y2 (hm : 0 < m) : Int01 (fun p => Q m p ^ 2) (m ^ 2 + m ^ 3) := by
  have h := Yn hm 2
  have e : SM m 2 = m ^ 2 + m ^ 3 := by
    rw [SM_rec]; simp [SM, B, cf]; ring
  rwa [e] at h

theorem hasMV (hm : 0 < m) (hs : 0 < s) : HasMV (fun x => f m ((x - loc) / s) / s) (loc + s * m) (m ^ 3 * s ^ 2) := by
  have h := hasMV_of_affine (isDist (loc := loc) hm hs) (F_Q hm hs) (Y1 hm) (Y2 hm)
  rwa [show s ^ 2 * (m ^ 2 + m ^ 3 - m ^ 2) = m ^ 3 * s ^ 2 by ring] at h

theorem snm_eval {n : ℕ} : standardNoncentralMoment n (fin m) = .ok (fin (SM m n)) := by
  rcases n with _ | n
  · simp [standardNoncentralMoment, SM]
  · have h1 : ∀ k ∈ List.range (n + 1),
        (do return (← mp.gammaprod12 (fin (((n + 1 : ℕ) : ℝ) + k)) (fin (k + 1)) (fin (((n + 1 : ℕ) : ℝ) - k))) *
          mp.ipow (← fin m /. 2) k : M Num) = .ok (fin (cf n k * (m / 2) ^ k)) := by
      intro k hk
      have hk : k ≤ n := by simpa [Nat.lt_succ_iff] using hk
      have hk' : (k:ℝ) ≤ n := by exact_mod_cast hk
      have p1 : (0:ℝ) < ((n + 1 : ℕ) : ℝ) + k := by positivity
      have p2 : (0:ℝ) < (k:ℝ) + 1 := by positivity
      have p3 : (0:ℝ) < ((n + 1 : ℕ) : ℝ) - k := by push_cast; linarith
      simp only [mp.gammaprod12, p1, p2, p3, and_self, if_true, ok_bind, ofNat_def, fin_div _ (two_ne_zero (α := ℝ)), mp.ipow_fin, fin_mul,
        pure_eq_ok]
      congr 3
      rw [show ((n + 1 : ℕ) : ℝ) + k = ((n + k : ℕ) : ℝ) + 1 by push_cast; ring,
        show ((n + 1 : ℕ) : ℝ) - k = ((n - k : ℕ) : ℝ) + 1 by push_cast [Nat.cast_sub hk]; ring,
        Real.Gamma_nat_eq_factorial, Real.Gamma_nat_eq_factorial, Real.Gamma_nat_eq_factorial, cf]
      have h2 := Nat.choose_mul_factorial_mul_factorial (show 2 * k ≤ n + k by omega)
      rw [show n + k - 2 * k = n - k by omega] at h2
      rw [← h2]
      have q1 := Nat.factorial_pos k
      have q2 := Nat.factorial_pos (n - k)
      push_cast
      field_simp
    simp only [standardNoncentralMoment, Nat.add_eq_zero_iff, one_ne_zero, and_false, if_false]
    rw [mapM_ok _ h1]
    simp only [ok_bind, mp.fsum_map_fin, mp.ipow_fin, fin_mul, pure_eq_ok, SM, Nat.add_eq_zero_iff, one_ne_zero, and_false, if_false,
      Nat.add_sub_cancel, B]
    rw [← List.sum_toFinset _ List.nodup_range, List.toFinset_range]

/-! ### Infinity -/

theorem cdf_pinf (hm : 0 < m) (hs : 0 < s) : cdf pinf (fin m) (fin loc) (fin s) = .ok nan := by
  have h0 : ¬ pinf ≤ fin loc := by simp
  have h1 : pinf - fin loc = pinf := rfl
  simp only [cdf, validate_ok hm hs, ok_bind, h0, if_false, h1, pinf_div_pos hs, pinf_div_pos hm, ofNat_def, fin_div _ hm.ne', mp.exp_fin]
  rfl
theorem sf_pinf (hm : 0 < m) (hs : 0 < s) : sf pinf (fin m) (fin loc) (fin s) = .ok nan := by
  have h0 : ¬ pinf ≤ fin loc := by simp
  have h1 : pinf - fin loc = pinf := rfl
  simp only [sf, validate_ok hm hs, ok_bind, h0, if_false, h1, pinf_div_pos hs, pinf_div_pos hm, ofNat_def, fin_div _ hm.ne', mp.exp_fin]
  rfl

end Mpsci.invgauss
