import Verif.Model.Dist.Genextreme
import Verif.Lemmas.Common
import Verif.Lemmas.Helpers
import Verif.Lemmas.Int01
import Verif.Lemmas.Shape
import Verif.Lemmas.Ineq
import Verif.Lemmas.Fun.Powm1
import Mathlib.Analysis.SpecialFunctions.Pow.Deriv

namespace Mpsci.genextreme

open Classical Num common Filter Topology Set

/-- `-log` of the standard distribution function inside the support. -/
noncomputable def T (k z : ℝ) : ℝ := if k = 0 then Real.exp (-z) else (1 + k * z) ^ (-1 / k)
/-- Standard distribution function, density, quantile function. -/
noncomputable def F (k z : ℝ) : ℝ :=
  if 0 < 1 + k * z then Real.exp (-T k z) else if 0 < k then 0 else 1
noncomputable def f (k z : ℝ) : ℝ :=
  if 1 + k * z < 0 ∨ (0 < k ∧ 1 + k * z ≤ 0) then 0 else T k z ^ (k + 1) * Real.exp (-T k z)
noncomputable def Q (k p : ℝ) : ℝ :=
  if k = 0 then -Real.log (-Real.log p) else ((-Real.log p) ^ (-k) - 1) / k

/-- The point where `pdf` computes 0 to a negative power: the upper end of the support, for `xi < -1`. -/
def Top (k m s : ℝ) : Set ℝ := {x | k < -1 ∧ x = m - s / k}
theorem finite_Top (k m s : ℝ) : (Top k m s).Finite := (finite_singleton (m - s / k)).subset fun _ h => h.2
/-- The closed support. -/
def Supp (k m s : ℝ) : Set ℝ := {x | (0 < k → m - s / k ≤ x) ∧ (k < 0 → x ≤ m - s / k)}
/-- The open support. -/
def Inner (k m s : ℝ) : Set ℝ := {x | (0 < k → m - s / k < x) ∧ (k < 0 → x < m - s / k)}

variable {k m s : ℝ}

theorem validate_ok (hs : 0 < s) :
    validateParams (fin k) (fin m) (fin s) = .ok (fin k, fin m, fin s) := by
  simp [validateParams, hs]
theorem validate_bad (hs : ¬ 0 < s) :
    validateParams (fin k) (fin m) (fin s) = .error .valueError := by
  simp [validateParams, not_lt.1 hs]

theorem le_bound_pos (hs : 0 < s) (hk : 0 < k) (x : ℝ) : x ≤ m - s / k ↔ 1 + k * ((x - m) / s) ≤ 0 := by
  have e : 1 + k * ((x - m) / s) = k / s * (x - (m - s / k)) := by field_simp; ring
  rw [e, mul_nonpos_iff_pos_imp_nonpos, and_iff_left_of_imp]
  · have : 0 < k / s := div_pos hk hs
    constructor
    · intro h _; linarith
    · intro h; linarith [h this]
  · intro h _; exact (div_pos hk hs).le
theorem bound_le_neg (hs : 0 < s) (hk : k < 0) (x : ℝ) : m - s / k ≤ x ↔ 1 + k * ((x - m) / s) ≤ 0 := by
  have e : 1 + k * ((x - m) / s) = k / s * (x - (m - s / k)) := by
    have := hk.ne; field_simp; ring
  have hks : k / s < 0 := div_neg_of_neg_of_pos hk hs
  rw [e]
  constructor
  · intro h; exact mul_nonpos_of_nonpos_of_nonneg hks.le (by linarith)
  · intro h; by_contra hc
    have := mul_pos_of_neg_of_neg hks (show x - (m - s / k) < 0 by linarith); linarith
theorem bound_lt_neg (hs : 0 < s) (hk : k < 0) (x : ℝ) : m - s / k < x ↔ 1 + k * ((x - m) / s) < 0 := by
  have e : 1 + k * ((x - m) / s) = k / s * (x - (m - s / k)) := by
    have := hk.ne; field_simp; ring
  have hks : k / s < 0 := div_neg_of_neg_of_pos hk hs
  rw [e]
  constructor
  · intro h; exact mul_neg_of_neg_of_pos hks (by linarith)
  · intro h; by_contra hc
    have := mul_nonneg_of_nonpos_of_nonpos hks.le (show x - (m - s / k) ≤ 0 by linarith); linarith

theorem top_iff (hs : 0 < s) (hk : k ≠ 0) (x : ℝ) : 1 + k * ((x - m) / s) = 0 ↔ x = m - s / k := by
  constructor
  · intro h; field_simp at h; field_simp; linarith
  · rintro rfl; field_simp; ring

theorem mem_supp (hs : 0 < s) (x : ℝ) : x ∈ Supp k m s ↔ 0 ≤ 1 + k * ((x - m) / s) := by
  rcases lt_trichotomy k 0 with h | h | h
  · simp [Supp, h, h.not_gt, ← not_lt, bound_lt_neg hs h]
  · simp [Supp, h]
  · simp only [Supp, h, h.not_gt, mem_setOf_eq, forall_const, false_imp_iff, and_true]
    rw [← not_lt, ← not_lt, not_iff_not]
    have e : 1 + k * ((x - m) / s) = k / s * (x - (m - s / k)) := by field_simp; ring
    have hks : 0 < k / s := div_pos h hs
    rw [e]
    constructor
    · intro h; exact mul_neg_of_pos_of_neg hks (by linarith)
    · intro h; by_contra hc
      have := mul_nonneg hks.le (show 0 ≤ x - (m - s / k) by linarith); linarith

theorem preimage_SInt (hs : 0 < s) : (fun x => (x - m) / s) ⁻¹' {z | 0 < 1 + k * z} = Inner k m s := by
  ext x
  rcases lt_trichotomy k 0 with h | h | h
  · simp [Inner, h, h.not_gt, ← not_le, bound_le_neg hs h]
  · simp [Inner, h]
  · simp [Inner, h, h.not_gt, ← not_le, le_bound_pos hs h]

theorem T_eval {z : ℝ} (hk : k ≠ 0) (h : 0 < 1 + k * z) :
    mp.power (fin (1 + k * z)) (fin (-1 / k)) = .ok (fin (T k z)) := by
  rw [mp.power_pos h, T, if_neg hk]
theorem T_pos {z : ℝ} (h : 0 < 1 + k * z) : 0 < T k z := by unfold T; split_ifs <;> positivity
theorem T_zero {z : ℝ} (hk : k < 0) (h : 1 + k * z = 0) : T k z = 0 := by
  rw [T, if_neg hk.ne, h, Real.zero_rpow]
  exact (div_pos_of_neg_of_neg (by norm_num) hk).ne'

theorem logcdf_in (hs : 0 < s) {x : ℝ} (h : 0 < 1 + k * ((x - m) / s)) :
    logcdf (fin x) (fin k) (fin m) (fin s) = .ok (fin (-T k ((x - m) / s))) := by
  simp only [logcdf, validate_ok hs, ok_bind]
  by_cases hk : k = 0
  · subst hk
    simp only [zero_def, fin_eq, not_true_eq_false, if_false, fin_sub, neg_fin, fin_div _ hs.ne', ok_bind, mp.exp_fin,
      pure_eq_ok, T, if_true, neg_div]
  · have h1 : ¬ (0 < k ∧ x ≤ m - s / k) := fun ⟨a, b⟩ => by rw [le_bound_pos hs a] at b; linarith
    have h2 : ¬ (k < 0 ∧ m - s / k ≤ x) := fun ⟨a, b⟩ => by rw [bound_le_neg hs a] at b; linarith
    simp only [zero_def, fin_eq, hk, not_false_eq_true, if_true, fin_div _ hk, ok_bind, fin_sub, fin_lt, fin_le, h1, h2,
      if_false, fin_div _ hs.ne', one_def, neg_fin, fin_mul, fin_add, pure_eq_ok]
    rw [mul_comm ((x - m) / s) k, T_eval hk h]; rfl
theorem logcdf_out (hs : 0 < s) {x : ℝ} (h : ¬ 0 < 1 + k * ((x - m) / s)) :
    logcdf (fin x) (fin k) (fin m) (fin s) = .ok (if 0 < k then ninf else 0) := by
  have hk : k ≠ 0 := by rintro rfl; simp at h
  simp only [logcdf, validate_ok hs, ok_bind]
  rcases lt_or_gt_of_ne hk with h1 | h1
  · have h2 : m - s / k ≤ x := (bound_le_neg hs h1 x).2 (not_lt.1 h)
    simp [hk, fin_div _ hk, h1, h1.not_gt, h2]
  · have h2 : x ≤ m - s / k := (le_bound_pos hs h1 x).2 (not_lt.1 h)
    simp [hk, fin_div _ hk, h1, h2]

theorem cdf_eval (hs : 0 < s) (x : ℝ) :
    cdf (fin x) (fin k) (fin m) (fin s) = .ok (fin (F k ((x - m) / s))) := by
  by_cases h : 0 < 1 + k * ((x - m) / s)
  · simp [cdf, logcdf_in hs h, F, h]
  · by_cases hk : 0 < k <;> simp [cdf, logcdf_out hs h, F, h, hk]
theorem sf_eval (hs : 0 < s) (x : ℝ) :
    sf (fin x) (fin k) (fin m) (fin s) = .ok (fin (1 - F k ((x - m) / s))) := by
  by_cases h : 0 < 1 + k * ((x - m) / s)
  · simp [sf, logcdf_in hs h, F, h]
  · by_cases hk : 0 < k <;> simp [sf, logcdf_out hs h, F, h, hk]

theorem f_nonneg (k z : ℝ) : 0 ≤ f k z := by
  unfold f
  split_ifs with h
  · exact le_rfl
  · push Not at h
    refine mul_nonneg (Real.rpow_nonneg ?_ _) (Real.exp_pos _).le
    rcases h.1.eq_or_lt with e | e
    · rcases lt_trichotomy k 0 with hk | hk | hk
      · rw [T_zero hk e.symm]
      · simp [hk] at e
      · exact absurd (h.2 hk) e.symm.le.not_gt
    · exact (T_pos e).le
theorem f_in {z : ℝ} (h : 0 < 1 + k * z) : f k z = T k z ^ (k + 1) * Real.exp (-T k z) := by
  rw [f, if_neg]; push Not; exact ⟨h.le, fun _ => h⟩
theorem f_pos {z : ℝ} (h : 0 < 1 + k * z) : 0 < f k z := by
  rw [f_in h]; have := T_pos h; positivity

theorem pdf_in (hs : 0 < s) {x : ℝ} (h : 0 < 1 + k * ((x - m) / s)) :
    pdf (fin x) (fin k) (fin m) (fin s) = .ok (fin (f k ((x - m) / s) / s)) := by
  rw [f_in h]
  simp only [pdf, validate_ok hs, ok_bind]
  by_cases hk : k = 0
  · subst hk
    simp only [zero_def, one_def, fin_eq, not_true_eq_false, if_false, fin_sub, neg_fin, fin_div _ hs.ne', ok_bind, mp.exp_fin,
      pure_eq_ok, T, if_true, neg_div, fin_add, mp.power_pos (Real.exp_pos _), fin_mul]
  · have h1 : ¬ (0 < k ∧ x ≤ m - s / k) := fun ⟨a, b⟩ => by rw [le_bound_pos hs a] at b; linarith
    have h2 : ¬ (k < 0 ∧ m - s / k < x) := fun ⟨a, b⟩ => by rw [bound_lt_neg hs a] at b; linarith
    simp only [zero_def, fin_eq, hk, not_false_eq_true, if_true, fin_div _ hk, ok_bind, fin_sub, fin_lt, fin_le, h1, h2,
      if_false, fin_div _ hs.ne', one_def, neg_fin, fin_mul, fin_add]
    rw [mul_comm ((x - m) / s) k, T_eval hk h]
    simp [mp.power_pos (T_pos h), fin_div _ hs.ne']
theorem pdf_eval (hs : 0 < s) (x : ℝ) (hx : x ∉ Top k m s) :
    pdf (fin x) (fin k) (fin m) (fin s) = .ok (fin (f k ((x - m) / s) / s)) := by
  rcases lt_trichotomy 0 (1 + k * ((x - m) / s)) with h | h | h
  · exact pdf_in hs h
  · have hk : k ≠ 0 := by rintro rfl; simp at h
    rcases lt_or_gt_of_ne hk with h1 | h1
    · have h2 := (top_iff hs hk x).1 h.symm
      have h3 : 0 ≤ k + 1 := by
        by_contra hc; exact hx ⟨by linarith, h2⟩
      have h4 : ¬ m - s / k < x := by rw [h2]; exact lt_irrefl _
      have hp : 0 < -1 / k := div_pos_of_neg_of_neg (by norm_num) h1
      simp only [pdf, validate_ok hs, ok_bind, f, ← h, h1, h1.not_gt, lt_irrefl, false_and, or_false, if_false,
        T_zero h1 h.symm, zero_def, one_def, fin_eq, hk, not_false_eq_true, if_true, fin_div _ hk, fin_sub, fin_lt, h4, and_false,
        fin_div _ hs.ne', fin_mul, fin_add, neg_fin]
      rw [mul_comm ((x - m) / s) k, ← h, mp.power_zero_pos hp]
      simp only [ok_bind, power_of_nonneg le_rfl (fun _ => h3), neg_fin, mp.exp_fin, fin_mul, fin_div _ hs.ne']
    · have h2 : x ≤ m - s / k := (le_bound_pos hs h1 x).2 h.symm.le
      simp [pdf, validate_ok hs, hk, fin_div _ hk, h1, h2, f, ← h]
  · have hk : k ≠ 0 := by rintro rfl; simp at h; linarith
    rcases lt_or_gt_of_ne hk with h1 | h1
    · have h2 := (bound_lt_neg hs h1 x).2 h
      simp [pdf, validate_ok hs, hk, fin_div _ hk, h1, h1.not_gt, h2, f, h]
    · have h2 : x ≤ m - s / k := (le_bound_pos hs h1 x).2 h.le
      simp [pdf, validate_ok hs, hk, fin_div _ hk, h1, h2, f, h]

theorem f_zero (hs : 0 < s) : ∀ x, x ∉ Supp k m s → f k ((x - m) / s) / s = 0 := by
  intro x hx
  rw [mem_supp hs, not_le] at hx
  simp [f, hx]

theorem logpdf_in (hs : 0 < s) {x : ℝ} (h : 0 < 1 + k * ((x - m) / s)) :
    logpdf (fin x) (fin k) (fin m) (fin s) = .ok (fin (Real.log (f k ((x - m) / s) / s))) := by
  have hT := T_pos h
  rw [Real.log_div (f_pos h).ne' hs.ne', f_in h, Real.log_mul (by positivity) (by positivity), Real.log_exp, Real.log_rpow hT]
  simp only [logpdf, validate_ok hs, ok_bind]
  by_cases hk : k = 0
  · subst hk
    simp only [zero_def, one_def, fin_eq, not_true_eq_false, if_false, fin_sub, neg_fin, fin_div _ hs.ne', ok_bind, mp.exp_fin,
      pure_eq_ok, T, if_true, neg_div, fin_add, fin_mul, mp.log_pos hs, Real.log_exp]
    simp [sub_eq_add_neg]
  · have h1 : ¬ (0 < k ∧ x ≤ m - s / k) := fun ⟨a, b⟩ => by rw [le_bound_pos hs a] at b; linarith
    have h2 : ¬ (k < 0 ∧ m - s / k ≤ x) := fun ⟨a, b⟩ => by rw [bound_le_neg hs a] at b; linarith
    have h3 : -1 < k * ((x - m) / s) := by linarith
    simp only [zero_def, fin_eq, hk, not_false_eq_true, if_true, fin_div _ hk, ok_bind, fin_sub, fin_lt, fin_le, h1, h2,
      if_false, fin_div _ hs.ne', one_def, neg_fin, fin_mul, fin_add]
    rw [mul_comm ((x - m) / s) k, T_eval hk h]
    have e : Real.log (T k ((x - m) / s)) = -Real.log (1 + k * ((x - m) / s)) / k := by
      rw [T, if_neg hk, Real.log_rpow h]; ring
    simp only [ok_bind, mp.log1p_pos h3, neg_fin, fin_div _ hk, pure_eq_ok, fin_mul, fin_sub, mp.log_pos hs, e]
    congr 2
theorem logpdf_out (hs : 0 < s) {x : ℝ} (h : ¬ 0 < 1 + k * ((x - m) / s)) :
    logpdf (fin x) (fin k) (fin m) (fin s) = .ok ninf := by
  have hk : k ≠ 0 := by rintro rfl; simp at h
  simp only [logpdf, validate_ok hs, ok_bind]
  rcases lt_or_gt_of_ne hk with h1 | h1
  · have h2 : m - s / k ≤ x := (bound_le_neg hs h1 x).2 (not_lt.1 h)
    simp [hk, fin_div _ hk, h1, h1.not_gt, h2]
  · have h2 : x ≤ m - s / k := (le_bound_pos hs h1 x).2 (not_lt.1 h)
    simp [hk, fin_div _ hk, h1, h2]

theorem hasDerivAt_F (k : ℝ) {z : ℝ} (h : 0 < 1 + k * z) : HasDerivAt (fun z => Real.exp (-T k z)) (f k z) z := by
  rw [f_in h]
  have h1 : HasDerivAt (T k) (-(T k z ^ (k + 1))) z := by
    by_cases hk : k = 0
    · have : T k = fun z => Real.exp (-z) := by funext z; simp [T, hk]
      rw [this]
      refine ((hasDerivAt_neg z).exp).congr_deriv ?_
      simp [hk]
    · have : T k = fun z => (1 + k * z) ^ (-1 / k) := by funext z; simp [T, hk]
      rw [this]
      have h1 : HasDerivAt (fun z : ℝ => 1 + k * z) k z := by
        simpa using ((hasDerivAt_id z).const_mul k).const_add 1
      refine (h1.rpow_const (p := -1 / k) (Or.inl h.ne')).congr_deriv ?_
      rw [← Real.rpow_mul h.le, show -1 / k * (k + 1) = -1 / k - 1 by field_simp; ring]
      field_simp
  exact (h1.neg.exp).congr_deriv (by simp only [Pi.neg_apply]; ring)

theorem isDist_std (k : ℝ) : IsDist (F k) (f k) := by
  rcases lt_trichotomy k 0 with hk | hk | hk
  · have hp : 0 < -1 / k := div_pos_of_neg_of_neg (by norm_num) hk
    have base : ∀ z, z < -1 / k → 0 < 1 + k * z := fun z hz => by
      rw [lt_div_iff_of_neg hk] at hz; linarith
    have base2 : ∀ z, -1 / k ≤ z → 1 + k * z ≤ 0 := fun z hz => by
      rw [div_le_iff_of_neg hk] at hz; linarith
    have e0 : 1 + k * (-1 / k) = 0 := by rw [mul_div_cancel₀ _ hk.ne]; norm_num
    refine isDist_Iio (b := -1 / k) (G := fun z => Real.exp (-T k z)) ?_ ?_ ?_ ?_ ?_ (f_nonneg k _) ?_
      (fun x _ => f_nonneg k x) ?_
    · intro x hx; simp [F, (base2 x hx).not_gt, hk.not_gt]
    · intro x hx; simp [F, base x hx]
    · simp [T_zero hk e0]
    · have : Continuous (T k) := by
        have e : T k = fun z => (1 + k * z) ^ (-1 / k) := by funext z; simp [T, hk.ne]
        rw [e]
        exact (by fun_prop : Continuous fun z : ℝ => 1 + k * z).rpow_const fun _ => Or.inr hp.le
      exact (Real.continuous_exp.comp this.neg).continuousWithinAt
    · intro x hx
      have : 1 + k * x < 0 := by rw [div_lt_iff_of_neg hk] at hx; linarith
      simp [f, this]
    · intro x hx; exact hasDerivAt_F k (base x hx)
    · have h1 : Tendsto (T k) atBot atTop := by
        have e : T k = fun z => (1 + k * z) ^ (-1 / k) := by funext z; simp [T, hk.ne]
        rw [e]
        exact (tendsto_rpow_atTop hp).comp
          (tendsto_atTop_add_const_left _ _ (tendsto_id.const_mul_atBot_of_neg hk))
      exact Real.tendsto_exp_neg_atTop_nhds_zero.comp h1
  · subst hk
    have e : F 0 = fun z => Real.exp (-T 0 z) := by funext z; simp [F]
    rw [e]
    refine isDist_univ (fun z => hasDerivAt_F 0 (by simp)) (f_nonneg 0) ?_ ?_
    · have h1 : Tendsto (T 0) atBot atTop := by
        have e : T 0 = fun z => Real.exp (-z) := by funext z; simp [T]
        rw [e]; exact Real.tendsto_exp_atTop.comp tendsto_neg_atBot_atTop
      exact Real.tendsto_exp_neg_atTop_nhds_zero.comp h1
    · have h1 : Tendsto (fun z => -T 0 z) atTop (𝓝 (-0)) := by
        have e : T 0 = fun z => Real.exp (-z) := by funext z; simp [T]
        rw [e]; exact Real.tendsto_exp_neg_atTop_nhds_zero.neg
      simpa [Function.comp_def] using (Real.continuous_exp.tendsto _).comp h1
  · have hn : 0 < 1 / k := one_div_pos.2 hk
    have base : ∀ z, -1 / k < z → 0 < 1 + k * z := fun z hz => by
      rw [div_lt_iff₀ hk] at hz; linarith
    have base2 : ∀ z, z ≤ -1 / k → 1 + k * z ≤ 0 := fun z hz => by
      rw [le_div_iff₀ hk] at hz; linarith
    have e0 : 1 + k * (-1 / k) = 0 := by rw [mul_div_cancel₀ _ hk.ne']; norm_num
    have e : ∀ z, T k z = (1 + k * z) ^ (-(1 / k)) := by intro z; simp [T, hk.ne', neg_div]
    refine isDist_Ioi (a := -1 / k) (G := F k) ?_ (fun _ _ => rfl) ?_ ?_ ?_ (f_nonneg k _) ?_
      (fun x _ => f_nonneg k x) ?_
    · intro x hx; simp [F, (base2 x hx).not_gt, hk]
    · simp [F, e0, hk]
    · rw [← continuousWithinAt_Ioi_iff_Ici, ContinuousWithinAt]
      have : F k (-1 / k) = 0 := by simp [F, e0, hk]
      rw [this]
      have h1 : Tendsto (fun z => Real.exp (-T k z)) (𝓝[>] (-1 / k)) (𝓝 0) := by
        refine Real.tendsto_exp_neg_atTop_nhds_zero.comp ?_
        have h2 : Tendsto (fun z => 1 + k * z) (𝓝[>] (-1 / k)) (𝓝[>] 0) := by
          refine tendsto_nhdsWithin_iff.2 ⟨?_, ?_⟩
          · have : Continuous fun z : ℝ => 1 + k * z := by fun_prop
            have := (this.tendsto (-1 / k)).mono_left (nhdsWithin_le_nhds (s := Ioi (-1 / k)))
            rwa [e0] at this
          · filter_upwards [self_mem_nhdsWithin] with z hz using base z hz
        have h3 := (tendsto_rpow_neg_nhdsGT_zero (neg_neg_of_pos hn)).comp h2
        exact h3.congr fun z => (e z).symm
      refine h1.congr' ?_
      filter_upwards [self_mem_nhdsWithin] with z hz
      simp [F, base z hz]
    · intro x hx; simp [f, hk, base2 x hx.le]
    · intro x hx
      refine (hasDerivAt_F k (base x hx)).congr_of_eventuallyEq ?_
      filter_upwards [Ioi_mem_nhds hx] with z hz
      simp [F, base z hz]
    · have h1 : Tendsto (fun z => -T k z) atTop (𝓝 (-0)) := by
        refine Tendsto.neg ?_
        have := (tendsto_rpow_neg_atTop hn).comp
          (tendsto_atTop_add_const_left _ (1:ℝ) (tendsto_id.const_mul_atTop hk))
        exact this.congr fun z => (e z).symm
      have h2 := (Real.continuous_exp.tendsto _).comp h1
      simp only [neg_zero, Real.exp_zero] at h2
      refine h2.congr' ?_
      filter_upwards [Ioi_mem_atTop (-1 / k)] with z hz
      simp [F, base z hz]

theorem isDist (hs : 0 < s) :
    IsDist (fun x => F k ((x - m) / s)) (fun x => f k ((x - m) / s) / s) := (isDist_std k).affine m hs

theorem neg_log_pos {p : ℝ} (h0 : 0 < p) (h1 : p < 1) : 0 < -Real.log p := by
  have := Real.log_neg h0 h1; linarith

theorem invcdf_eval (hs : 0 < s) {p : ℝ} (h0 : 0 < p) (h1 : p < 1) :
    invcdf (fin p) (fin k) (fin m) (fin s) = .ok (fin (m + s * Q k p)) := by
  have hl := neg_log_pos h0 h1
  by_cases hk : k = 0
  · simp [invcdf, validate_ok hs, validateP_ok h0.le h1.le, hk, mp.log_pos h0, mp.log_pos hl, Q, -Real.log_neg_eq_log, sub_eq_add_neg]
  · simp [invcdf, validate_ok hs, validateP_ok h0.le h1.le, hk, fin_div _ hk, mp.log_pos h0, mp.powm1_pos hl, Q]
    ring
theorem invsf_eval (hs : 0 < s) {p : ℝ} (h0 : 0 < p) (h1 : p < 1) :
    invsf (fin p) (fin k) (fin m) (fin s) = .ok (fin (m + s * Q k (1 - p))) := by
  have hl := neg_log_pos (p := 1 - p) (by linarith) (by linarith)
  by_cases hk : k = 0
  · simp [invsf, validate_ok hs, validateP_ok h0.le h1.le, hk, mp_log1p_neg h1, mp.log_pos hl, Q, -Real.log_neg_eq_log]
    ring
  · simp [invsf, validate_ok hs, validateP_ok h0.le h1.le, hk, fin_div _ hk, mp_log1p_neg h1, mp.powm1_pos hl, Q]
    ring

theorem base_Q (hk : k ≠ 0) (p : ℝ) : 1 + k * Q k p = (-Real.log p) ^ (-k) := by
  simp only [Q, hk, if_false]; field_simp; ring
theorem base_pos {p : ℝ} (h0 : 0 < p) (h1 : p < 1) : 0 < 1 + k * Q k p := by
  by_cases hk : k = 0
  · simp [hk]
  · rw [base_Q hk]; have := neg_log_pos h0 h1; positivity
theorem T_Q {p : ℝ} (h0 : 0 < p) (h1 : p < 1) : T k (Q k p) = -Real.log p := by
  have hl := neg_log_pos h0 h1
  by_cases hk : k = 0
  · simp only [T, Q, hk, if_true, neg_neg]; rw [Real.exp_log hl]
  · rw [T, if_neg hk, base_Q hk, ← Real.rpow_mul hl.le]
    have : -k * (-1 / k) = 1 := by field_simp
    rw [this, Real.rpow_one]

theorem F_Q (_ : 0 < s) {p : ℝ} (h0 : 0 < p) (h1 : p < 1) : Q k p ∈ {z | 0 < 1 + k * z} ∧ F k (Q k p) = p := by
  refine ⟨base_pos h0 h1, ?_⟩
  rw [F, if_pos (base_pos h0 h1), T_Q h0 h1, neg_neg, Real.exp_log h0]

theorem Q_F (_ : 0 < s) {z : ℝ} (hz : z ∈ {z | 0 < 1 + k * z}) : 0 < F k z ∧ F k z < 1 ∧ Q k (F k z) = z := by
  have hz : 0 < 1 + k * z := hz
  have hT := T_pos hz
  rw [F, if_pos hz]
  refine ⟨Real.exp_pos _, by rw [Real.exp_lt_one_iff]; linarith, ?_⟩
  rw [Q, Real.log_exp, neg_neg]
  by_cases hk : k = 0
  · simp [hk, T]
  · rw [if_neg hk, T, if_neg hk, ← Real.rpow_mul hz.le]
    have : -1 / k * -k = 1 := by field_simp
    rw [this, Real.rpow_one]; field_simp; ring

/-! ### Mode -/

theorem f_le (hk : -1 ≤ k) (z : ℝ) : f k z ≤ (k + 1) ^ (k + 1) * Real.exp (-(k + 1)) := by
  have h0 : 0 ≤ k + 1 := by linarith
  by_cases h : 0 < 1 + k * z
  · rw [f_in h]; exact rpow_mul_exp_neg_le h0 (T_pos h)
  · unfold f
    split_ifs with h1
    · exact mul_nonneg (Real.rpow_nonneg h0 _) (Real.exp_pos _).le
    · push Not at h1
      have e : 1 + k * z = 0 := le_antisymm (not_lt.1 h) h1.1
      have hk0 : k < 0 := by
        by_contra hc
        rcases (not_lt.1 hc).eq_or_lt with h2 | h2
        · rw [← h2] at e; simp at e
        · exact absurd (h1.2 h2) e.le.not_gt
      rw [T_zero hk0 e]
      rcases h0.eq_or_lt with h3 | h3
      · rw [← h3]
      · rw [Real.zero_rpow h3.ne', zero_mul]; positivity

/-- The standard mode. -/
noncomputable def md (k : ℝ) : ℝ := if k = 0 then 0 else ((1 + k) ^ (-k) - 1) / k

theorem mode_eval (hs : 0 < s) (hk : -1 ≤ k) :
    mode (fin k) (fin m) (fin s) = .ok (fin (m + s * md k)) := by
  by_cases h0 : k = 0
  · simp [mode, validate_ok hs, h0, md]
  · have h1 : fun_.pow1pm1 (fin k) (fin (-k)) = .ok (fin ((1 + k) ^ (-k) - 1)) := by
      rcases hk.eq_or_lt with rfl | hk
      · simp [fun_.pow1pm1, fun_.xlog1py, mp.isnan, scaleInf_pos]
      · rw [fun_.pow1pm1_eval _ hk]
    simp only [mode, validate_ok hs, ok_bind, one_def, zero_def, neg_fin, fin_lt, hk.not_gt, if_false, fin_eq, h0, h1,
      fin_mul, fin_div _ h0, fin_add, pure_eq_ok, md]
    congr 2; ring

theorem f_md (hk : -1 ≤ k) : f k (md k) = (k + 1) ^ (k + 1) * Real.exp (-(k + 1)) := by
  by_cases h0 : k = 0
  · simp [h0, f, md, T]
  · have e : 1 + k * md k = (1 + k) ^ (-k) := by simp only [md, h0, if_false]; field_simp; ring
    rcases hk.eq_or_lt with rfl | hk
    · have e2 : (1:ℝ) + -1 * md (-1) = 0 := by rw [e]; norm_num
      rw [f, e2, if_neg (by norm_num), T_zero (by norm_num) e2]; norm_num
    · have h1 : 0 < 1 + k := by linarith
      have h2 : 0 < 1 + k * md k := by rw [e]; positivity
      have h3 : T k (md k) = 1 + k := by
        rw [T, if_neg h0, e, ← Real.rpow_mul h1.le]
        have : -k * (-1 / k) = 1 := by field_simp
        rw [this, Real.rpow_one]
      rw [f_in h2, h3, add_comm]

/-! ### Moments -/

/-- `Γ(1 - j xi)` -/
theorem int01_Y {j : ℕ} (h : k * j < 1) :
    Int01 (fun p => ((-Real.log p) ^ (-k)) ^ j) (Real.Gamma (1 - k * j)) := by
  have := int01_neg_log_rpow (s := -(k * j)) (by linarith)
  rw [show -(k * j) + 1 = 1 - k * j by ring] at this
  refine this.congr fun p h0 h1 => ?_
  rw [← Real.rpow_natCast, ← Real.rpow_mul (neg_log_pos h0 h1).le]; ring_nf

theorem Q_affine (hk : k ≠ 0) (m s p : ℝ) :
    m + s * Q k p = m - s / k + s / k * (-Real.log p) ^ (-k) := by
  simp only [Q, hk, if_false]; ring

theorem F_affine (hs : 0 < s) (hk : k ≠ 0) (p : ℝ) (h0 : 0 < p) (h1 : p < 1) :
    F k ((m - s / k + s / k * (-Real.log p) ^ (-k) - m) / s) = p := by
  rw [← Q_affine hk, show (m + s * Q k p - m) / s = Q k p by field_simp; ring]
  exact (F_Q hs h0 h1).2

theorem hasM_pos (hs : 0 < s) (h : k < 1) (hk : k ≠ 0) :
    HasM (fun x => f k ((x - m) / s) / s) (m - s / k + s / k * Real.Gamma (1 - k)) := by
  have h1 := int01_Y (k := k) (j := 1) (by simpa using h)
  simp only [pow_one, Nat.cast_one, mul_one] at h1
  exact HasM.of_int01 (isDist hs) (F_affine hs hk) (int01_affine1 h1)

theorem hasMV_pos (hs : 0 < s) (h : 2 * k < 1) (hk : k ≠ 0) :
    HasMV (fun x => f k ((x - m) / s) / s) (m - s / k + s / k * Real.Gamma (1 - k))
      ((s / k) ^ 2 * (Real.Gamma (1 - 2 * k) - Real.Gamma (1 - k) ^ 2)) := by
  have h1 := int01_Y (k := k) (j := 1) (by push_cast; linarith)
  have h2 := int01_Y (k := k) (j := 2) (by push_cast; linarith)
  simp only [pow_one, Nat.cast_one, mul_one, Nat.cast_ofNat] at h1 h2
  rw [mul_comm k 2] at h2
  exact hasMV_of_affine (isDist hs) (F_affine hs hk) h1 h2

theorem hasMV_zero : HasMV (f 0) Real.eulerMascheroniConstant (Real.pi ^ 2 / 6) := by
  have h1 := (int01_loglog 1).neg
  have h2 := int01_loglog 2
  rw [LG_one_one] at h1; rw [LG_two_one] at h2
  refine HasMV.of_int01 (isDist_std 0) (fun p h0 h1 => (F_Q one_pos h0 h1).2) ?_
    (h2.congr fun p _ _ => ?_) (by ring)
  · rw [neg_neg] at h1
    exact h1.congr fun p _ _ => by simp [Q]
  · simp [Q]

theorem hasEnt_std (k : ℝ) : HasEnt (f k) (Real.eulerMascheroniConstant * (k + 1) + 1) := by
  refine HasEnt.of_int01 (isDist_std k) (fun p h0 h1 => (F_Q one_pos h0 h1).2) ?_
  have h := ((int01_loglog 1).mul (-(k + 1))).sub int01_log
  rw [LG_one_one, show -(k + 1) * -Real.eulerMascheroniConstant - -1 = Real.eulerMascheroniConstant * (k + 1) + 1 by ring] at h
  refine h.congr fun p h0 h1 => ?_
  have hl := neg_log_pos h0 h1
  rw [f_in (base_pos h0 h1), T_Q h0 h1, neg_neg, Real.exp_log h0, Real.log_mul (by positivity) h0.ne', Real.log_rpow hl]
  ring

/-- The standard moment of order `n`, for `xi ≠ 0`. -/
noncomputable def SM (k : ℝ) (n : ℕ) : ℝ :=
  (∑ j ∈ Finset.range (n + 1), (n.choose j : ℝ) * (-1) ^ j * Real.Gamma (1 - k * j)) / (-k) ^ n

theorem lt_inv_nat {n : ℕ} (hn : n ≠ 0) : k < 1 / n ↔ k * n < 1 := by
  rw [lt_div_iff₀ (by positivity)]

theorem mul_lt_of_le {n j : ℕ} (h : k * n < 1) (hj : j ≤ n) : k * j < 1 := by
  rcases le_or_gt k 0 with hk | hk
  · have : k * j ≤ 0 := mul_nonpos_of_nonpos_of_nonneg hk (by positivity)
    linarith
  · have : (j:ℝ) ≤ n := by exact_mod_cast hj
    nlinarith

theorem snm_eval (hk : k ≠ 0) {n : ℕ} (h : k * n < 1) :
    standardNoncentralMoment n (fin k) = .ok (fin (SM k n)) := by
  rcases Nat.eq_zero_or_pos n with rfl | hn
  · simp [standardNoncentralMoment, SM]
  · have hn0 : (n:ℝ) ≠ 0 := by positivity
    have hl := (lt_inv_nat (k := k) hn.ne').2 h
    have h1 : ∀ j ∈ List.range (n + 1),
        (do return (← mp.binomial n j) * mp.ipow (-1) j * (← mp.gamma (1 - fin k * fin j)) : M Num) =
          .ok (fin ((n.choose j : ℝ) * (-1) ^ j * Real.Gamma (1 - k * j))) := by
      intro j hj
      have hj : j ≤ n := by simpa [Nat.lt_succ_iff] using hj
      have : 0 < 1 - k * j := by have := mul_lt_of_le h hj; linarith
      simp only [mp.binomial_nat, ok_bind, fin_mul, one_def, fin_sub, mp.gamma_pos this, neg_fin, mp.ipow_fin, pure_eq_ok]
    simp only [standardNoncentralMoment, hn.ne', if_false, one_def, fin_div _ hn0, ok_bind, fin_lt, hl, if_true]
    simp only [one_def] at h1
    rw [mapM_ok _ h1]
    simp only [ok_bind, mp.fsum_map_fin, neg_fin, mp.ipow_fin, fin_div _ (pow_ne_zero n (neg_ne_zero.2 hk))]
    rw [SM, ← List.sum_toFinset _ List.nodup_range, List.toFinset_range]

theorem int01_Qn (hk : k ≠ 0) {n : ℕ} (h : k * n < 1) : Int01 (fun p => Q k p ^ n) (SM k n) := by
  have h1 := (Int01.sum (Finset.range (n + 1)) fun j hj =>
    (int01_Y (k := k) (j := j) (mul_lt_of_le h (by simpa [Nat.lt_succ_iff] using hj))).mul
      ((n.choose j : ℝ) * (-1) ^ j)).mul (1 / (-k) ^ n)
  have e : SM k n = 1 / (-k) ^ n * ∑ j ∈ Finset.range (n + 1), (n.choose j : ℝ) * (-1) ^ j * Real.Gamma (1 - k * j) := by
    rw [SM]; ring
  rw [e]
  refine h1.congr fun p _ _ => ?_
  simp only [Q, hk, if_false]
  rw [div_pow, sub_eq_add_neg, add_pow, neg_pow k, Finset.mul_sum, Finset.sum_div]
  refine Finset.sum_congr rfl fun j hj => ?_
  have hj : j ≤ n := by simpa [Nat.lt_succ_iff] using hj
  obtain ⟨d, rfl⟩ := Nat.exists_eq_add_of_le hj
  have hu : ((-1:ℝ) ^ j) * (-1) ^ j = 1 := by rw [← mul_pow]; norm_num
  have hd : ((-1:ℝ) ^ d) * (-1) ^ d = 1 := by rw [← mul_pow]; norm_num
  have hj0 : ((-1:ℝ) ^ j) ≠ 0 := pow_ne_zero _ (by norm_num)
  have hd0 : ((-1:ℝ) ^ d) ≠ 0 := pow_ne_zero _ (by norm_num)
  rw [Nat.add_sub_cancel_left, pow_add (-1:ℝ) j d]
  have hk0 : k ^ (j + d) ≠ 0 := pow_ne_zero _ hk
  generalize ((-Real.log p) ^ (-k)) ^ j = y
  generalize ((j + d).choose j : ℝ) = c
  field_simp
  rw [pow_two] at *
  linear_combination (y * c) * hd

end Mpsci.genextreme
