import Verif.Model.Dist.Gamma
import Verif.Lemmas.Common
import Verif.Lemmas.Helpers
import Verif.Lemmas.GammaDist
import Verif.Lemmas.Search

namespace Mpsci.gamma

open Classical Num common Filter Topology Set

variable {k s : ℝ}

theorem validate_ok (hk : 0 < k) (hs : 0 < s) : validateParams (fin k) (fin s) = .ok (fin k, fin s) := by
  simp [validateParams, hk.not_ge, hs.not_ge]
theorem validate_bad (h : ¬ (0 < k ∧ 0 < s)) : validateParams (fin k) (fin s) = .error .valueError := by
  by_cases hk : k ≤ 0
  · simp [validateParams, hk]
  have : s ≤ 0 := by
    by_contra hs; exact h ⟨not_le.1 hk, not_le.1 hs⟩
  simp [validateParams, hk, this]

/-- distribution function and density of the standard distribution -/
noncomputable def F (k z : ℝ) : ℝ := gammaD.F k z
noncomputable def f (k z : ℝ) : ℝ := gammaD.f k z

theorem scale_lt_zero {x : ℝ} (hs : 0 < s) : x / s < 0 ↔ x < 0 := by rw [div_lt_iff₀ hs, zero_mul]

theorem cdf_eval (hk : 0 < k) (hs : 0 < s) (x : ℝ) : cdf (fin x) (fin k) (fin s) = .ok (fin (F k (x / s))) := by
  rcases lt_or_ge x 0 with h | h
  · simp [cdf, validate_ok hk hs, h, F, gammaD.F_nonpos ((scale_lt_zero hs).2 h).le]
  · have hz : 0 ≤ x / s := div_nonneg h hs.le
    simp only [cdf, validate_ok hk hs, ok_bind, zero_def, fin_lt, h.not_gt, if_false, fin_div _ hs.ne',
      mp.gammaincReg_fin hk le_rfl hz, F, gammaD.F_nonneg_arg hz, gammaD.P]
theorem sf_eval (hk : 0 < k) (hs : 0 < s) (x : ℝ) : sf (fin x) (fin k) (fin s) = .ok (fin (1 - F k (x / s))) := by
  rcases lt_or_ge x 0 with h | h
  · simp [sf, validate_ok hk hs, h, F, gammaD.F_nonpos ((scale_lt_zero hs).2 h).le]
  · have hz : 0 ≤ x / s := div_nonneg h hs.le
    simp only [sf, validate_ok hk hs, ok_bind, zero_def, fin_lt, h.not_gt, if_false, fin_div _ hs.ne',
      mp.gammaincReg_pinf hk hz, F, gammaD.F_nonneg_arg hz, gammaD.gammaTail_eq hk hz]

theorem g_eq (hs : 0 < s) {x : ℝ} (h : 0 ≤ x) :
    1 / Real.Gamma k / s ^ k * x ^ (k - 1) * Real.exp (-x / s) = gammaD.g k (x / s) / s := by
  have e : s ^ k = s ^ (k - 1) * s := by rw [Real.rpow_sub_one hs.ne']; field_simp
  rw [gammaD.g, Real.div_rpow h hs.le, e, neg_div]
  field_simp

theorem pdf_eval (hk : 0 < k) (hs : 0 < s) (x : ℝ) (h1 : 1 ≤ k ∨ x ≠ 0) :
    pdf (fin x) (fin k) (fin s) = .ok (fin (f k (x / s) / s)) := by
  rcases lt_or_ge x 0 with h | h
  · simp [pdf, validate_ok hk hs, h, f, gammaD.f_neg ((scale_lt_zero hs).2 h)]
  · have hz : 0 ≤ x / s := div_nonneg h hs.le
    have hp : mp.power (fin x) (fin (k - 1)) = .ok (fin (x ^ (k - 1))) := by
      rcases h.eq_or_lt with rfl | h
      · rcases h1 with h1 | h1
        · exact power_of_nonneg le_rfl (fun _ => by linarith)
        · exact absurd rfl h1
      · exact mp.power_pos h _
    simp only [pdf, validate_ok hk hs, ok_bind, zero_def, one_def, fin_lt, h.not_gt, if_false, fin_div _ hs.ne',
      mp.rgamma_pos hk, mp.power_pos hs, fin_div _ (Real.rpow_pos_of_pos hs k).ne', fin_sub, hp, neg_fin, mp.exp_fin,
      fin_mul, pure_eq_ok, g_eq hs h, f, gammaD.f_of_nonneg hz]
/-- at 0 with `k < 1` -/
theorem pdf_zero (hk : 0 < k) (hs : 0 < s) (h : k < 1) : pdf (fin 0) (fin k) (fin s) = .error .zeroDivision ∨
    pdf (fin 0) (fin k) (fin s) = .ok pinf := by
  have hp : mp.power (fin 0) (fin (k - 1)) = .error .zeroDivision ∨ mp.power (fin 0) (fin (k - 1)) = .ok pinf := by
    simp only [mp.power, lt_irrefl, if_false, if_true, show ¬ 0 < k - 1 by linarith, (by linarith : k - 1 ≠ 0)]
    split_ifs <;> simp
  have hg := gammaD.Gpos hk
  have hc : 0 < 1 / Real.Gamma k / s ^ k := by positivity
  rcases hp with hp | hp
  · left
    simp only [pdf, validate_ok hk hs, ok_bind, zero_def, one_def, fin_lt, lt_irrefl, if_false, 
      mp.rgamma_pos hk, mp.power_pos hs, fin_div _ (Real.rpow_pos_of_pos hs k).ne', fin_sub, hp]
    rfl
  · right
    simp only [pdf, validate_ok hk hs, ok_bind, zero_def, one_def, fin_lt, lt_irrefl, if_false, fin_div _ hs.ne',
      mp.rgamma_pos hk, mp.power_pos hs, fin_div _ (Real.rpow_pos_of_pos hs k).ne', fin_sub, hp, neg_fin, mp.exp_fin,
      pure_eq_ok, fin_mul_pinf, scaleInf_pos hc, pinf_mul_fin, scaleInf_pos (Real.exp_pos _)]

theorem logpdf_pos (hk : 0 < k) (hs : 0 < s) {x : ℝ} (h : 0 < x) :
    logpdf (fin x) (fin k) (fin s) = .ok (fin (Real.log (f k (x / s) / s))) := by
  have hz : 0 < x / s := div_pos h hs
  have hg := gammaD.Gpos hk
  have e : Real.log (f k (x / s) / s) =
      -Real.log (Real.Gamma k) - k * Real.log s + (k - 1) * Real.log x - x / s := by
    rw [f, gammaD.f_of_nonneg hz.le, gammaD.g, Real.log_div (by positivity) hs.ne', Real.log_div (by positivity) hg.ne',
      Real.log_mul (by positivity) (by positivity), Real.log_exp, Real.log_rpow hz, Real.log_div h.ne' hs.ne']
    ring
  rw [e]
  simp only [logpdf, validate_ok hk hs, ok_bind, zero_def, one_def, fin_lt, h.le.not_gt, if_false, mp.loggamma_pos hk,
    mp.log_pos hs, mp.log_pos h, fin_div _ hs.ne', neg_fin, fin_mul, fin_sub, fin_add, pure_eq_ok]
theorem logpdf_neg (hk : 0 < k) (hs : 0 < s) {x : ℝ} (h : x < 0) : logpdf (fin x) (fin k) (fin s) = .ok ninf := by
  simp [logpdf, validate_ok hk hs, h]
theorem logpdf_zero (hk : 0 < k) (hs : 0 < s) : logpdf (fin 0) (fin k) (fin s) =
    .ok (if 1 < k then ninf else if k = 1 then nan else pinf) := by
  have h0 : mp.log (fin 0) = .ok ninf := mp.log_zero
  simp only [logpdf, validate_ok hk hs, ok_bind, zero_def, one_def, fin_lt, lt_irrefl, if_false, mp.loggamma_pos hk,
    mp.log_pos hs, h0, fin_div _ hs.ne', neg_fin, fin_mul, fin_sub, pure_eq_ok, fin_mul_ninf]
  rcases lt_trichotomy k 1 with h | rfl | h
  · rw [scaleInf_neg (by linarith), if_neg h.not_gt, if_neg h.ne]; rfl
  · simp [scaleInf]
  · rw [scaleInf_pos (by linarith), if_pos h]; rfl

theorem f_pos (hk : 0 < k) {z : ℝ} (h : 0 < z) : 0 < f k z := by
  rw [f, gammaD.f_of_nonneg h.le]; exact gammaD.g_pos hk h
theorem f_nonneg (hk : 0 < k) (z : ℝ) : 0 ≤ f k z := gammaD.f_nonneg hk z
theorem f_zero (_ : 0 < k) (hs : 0 < s) : ∀ x, x ∉ Ici (0:ℝ) → f k (x / s) / s = 0 := by
  intro x hx
  rw [f, gammaD.f_neg ((scale_lt_zero hs).2 (not_le.1 hx)), zero_div]

theorem isDist (hk : 0 < k) (hs : 0 < s) : IsDist (fun x => F k (x / s)) (fun x => f k (x / s) / s) :=
  (gammaD.isDist hk).scale hs

theorem F_Q (hk : 0 < k) (hs : 0 < s) (p : ℝ) (h0 : 0 < p) (h1 : p < 1) : F k (s * gammaD.Q k p / s) = p := by
  rw [mul_div_cancel_left₀ _ hs.ne']; exact gammaD.F_Q hk p h0 h1

theorem F_unique (hk : 0 < k) (hs : 0 < s) {x : ℝ} (hx : 0 < x) (y : ℝ) (h : F k (y / s) = F k (x / s)) : y = x := by
  have hz := div_pos hx hs
  rcases le_or_gt y 0 with hy | hy
  · have h1 : F k (y / s) = 0 := gammaD.F_nonpos ((scale_le_zero hs).2 hy)
    have h2 := gammaD.P_pos hk hz
    rw [h1, F, gammaD.F_pos hz] at h; linarith
  · have hw := div_pos hy hs
    rw [F, F, gammaD.F_pos hz, gammaD.F_pos hw] at h
    have := (gammaD.P_strictMonoOn hk).injOn hw.le hz.le h
    rwa [div_left_inj' hs.ne'] at this

theorem F_mem (hk : 0 < k) (hs : 0 < s) {x : ℝ} (hx : 0 < x) : 0 < F k (x / s) ∧ F k (x / s) < 1 := by
  have hz := div_pos hx hs
  rw [F, gammaD.F_pos hz]; exact ⟨gammaD.P_pos hk hz, gammaD.P_lt_one hk hz.le⟩

theorem cdf_pinf (hk : 0 < k) (hs : 0 < s) : cdf pinf (fin k) (fin s) = .ok (fin 1) := by
  have h := gammaD.gammaTail_eq hk le_rfl
  simp only [gammaD.P_zero, sub_zero] at h
  have h0 : ¬ pinf < fin 0 := by simp
  simp only [cdf, validate_ok hk hs, ok_bind, zero_def, h0, if_false, pinf_div_pos hs, mp.gammaincReg_pinf hk le_rfl, h]
theorem sf_pinf (hk : 0 < k) (hs : 0 < s) : sf pinf (fin k) (fin s) = .ok (fin 0) := by
  have h0 : ¬ pinf < fin 0 := by simp
  simp only [sf, validate_ok hk hs, ok_bind, zero_def, h0, if_false, pinf_div_pos hs, mp.gammaincReg_pinf_pinf hk]

/-! ### Moments -/

theorem Y1 (hk : 0 < k) : Int01 (gammaD.Q k) k := gammaD.E_id hk
theorem Y2 (hk : 0 < k) : Int01 (fun p => gammaD.Q k p ^ 2) (k * (k + 1)) := gammaD.E_sq hk
theorem Y3 (hk : 0 < k) : Int01 (fun p => gammaD.Q k p ^ 3) (k * (k + 1) * (k + 2)) := gammaD.E_cube hk
theorem Y4 (hk : 0 < k) : Int01 (fun p => gammaD.Q k p ^ 4) (k * (k + 1) * (k + 2) * (k + 3)) := gammaD.E_four hk
theorem Yn (hk : 0 < k) (n : ℕ) : Int01 (fun p => gammaD.Q k p ^ n) (Real.Gamma (k + n) / Real.Gamma k) := gammaD.E_pow hk n

theorem quantile (hk : 0 < k) (hs : 0 < s) (p : ℝ) (h0 : 0 < p) (h1 : p < 1) :
    (fun x => F k (x / s)) (0 + s * gammaD.Q k p) = p := by
  simpa only [zero_add] using F_Q hk hs p h0 h1

theorem hasMV (hk : 0 < k) (hs : 0 < s) : HasMV (fun x => f k (x / s) / s) (k * s) (k * s ^ 2) := by
  have := hasMV_of_affine (isDist hk hs) (quantile hk hs) (Y1 hk) (Y2 hk)
  rwa [show 0 + s * k = k * s by ring, show s ^ 2 * (k * (k + 1) - k ^ 2) = k * s ^ 2 by ring] at this

theorem hasEnt_std (hk : 0 < k) : HasEnt (f k) (k + Real.log (Real.Gamma k) + (1 - k) * psi k) := by
  refine HasEnt.of_int01 (gammaD.isDist hk) (gammaD.F_Q hk) ?_
  have h := ((((gammaD.E_log1 hk).mul (1 - k)).add (Y1 hk)).add (Int01.const (Real.log (Real.Gamma k))))
  rw [show (1 - k) * psi k + k + Real.log (Real.Gamma k) = k + Real.log (Real.Gamma k) + (1 - k) * psi k by ring] at h
  refine h.congr fun p _ _ => ?_
  have hq := gammaD.Q_pos (k := k) p
  have hg := gammaD.Gpos hk
  rw [f, gammaD.f_of_nonneg hq.le, gammaD.g, Real.log_div (by positivity) hg.ne', Real.log_mul (by positivity) (by positivity),
    Real.log_exp, Real.log_rpow hq]
  ring

/-! ### The mode -/

theorem g_le (hk : 1 ≤ k) {z : ℝ} (hz : 0 ≤ z) : gammaD.g k z ≤ gammaD.g k (k - 1) := by
  have hg := gammaD.Gpos (by linarith : 0 < k)
  refine div_le_div_of_nonneg_right ?_ hg.le
  rcases hk.eq_or_lt with rfl | hk
  · simpa using hz
  · have hm : 0 < k - 1 := by linarith
    rcases hz.eq_or_lt with rfl | hz
    · rw [Real.zero_rpow hm.ne', zero_mul]; positivity
    · rw [Real.rpow_def_of_pos hz, Real.rpow_def_of_pos hm, ← Real.exp_add, ← Real.exp_add, Real.exp_le_exp]
      have := Real.log_le_sub_one_of_pos (div_pos hz hm)
      rw [Real.log_div hz.ne' hm.ne'] at this
      have h2 := mul_le_mul_of_nonneg_right this hm.le
      rw [sub_mul (z / (k - 1)), div_mul_cancel₀ _ hm.ne'] at h2
      linarith

theorem f_le (hk : 1 ≤ k) (z : ℝ) : f k z ≤ f k (k - 1) := by
  have h0 : 0 < k := by linarith
  rcases lt_or_ge z 0 with h | h
  · rw [f, gammaD.f_neg h]; exact f_nonneg h0 _
  · rw [f, f, gammaD.f_of_nonneg h, gammaD.f_of_nonneg (by linarith)]; exact g_le hk h

theorem g_antitone (h0 : 0 < k) (hk : k ≤ 1) {x y : ℝ} (hx : 0 < x) (hxy : x < y) : gammaD.g k y < gammaD.g k x := by
  have hg := gammaD.Gpos h0
  refine div_lt_div_of_pos_right ?_ hg
  have h1 : y ^ (k - 1) ≤ x ^ (k - 1) := Real.rpow_le_rpow_of_nonpos hx hxy.le (by linarith)
  have h2 : Real.exp (-y) < Real.exp (-x) := Real.exp_lt_exp.2 (by linarith)
  have h3 : 0 < x ^ (k - 1) := by positivity
  nlinarith [Real.exp_pos (-y)]

theorem mode_eval (hk : 1 ≤ k) (hs : 0 < s) : mode (fin k) (fin s) = .ok (fin (s * (k - 1))) := by
  rcases hk.eq_or_lt with rfl | h
  · simp [mode, validate_ok one_pos hs]
  · simp [mode, validate_ok (by linarith : 0 < k) hs, h.not_ge]

end Mpsci.gamma
