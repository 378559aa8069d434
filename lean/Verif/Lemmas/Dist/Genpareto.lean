import Verif.Model.Dist.Genpareto
import Verif.Lemmas.Common
import Verif.Lemmas.Helpers
import Verif.Lemmas.Int01
import Verif.Lemmas.Fun.Powm1
import Mathlib.Analysis.SpecialFunctions.Pow.Deriv

namespace Mpsci.genpareto

open Classical Num common Filter Topology Set

/-- Standard survival function inside the support, distribution function, density, quantile. -/
noncomputable def G (k z : ℝ) : ℝ := if k = 0 then Real.exp (-z) else (1 + k * z) ^ (-1 / k)
noncomputable def g (k z : ℝ) : ℝ :=
  if k = 0 then Real.exp (-z) else (1 + k * z) ^ (-(1 / k + 1))
noncomputable def F (k z : ℝ) : ℝ := if z < 0 then 0 else if 1 + k * z < 0 then 1 else 1 - G k z
noncomputable def f (k z : ℝ) : ℝ := if z < 0 ∨ 1 + k * z < 0 then 0 else g k z
noncomputable def Q (k p : ℝ) : ℝ := if k = 0 then -Real.log (1 - p) else ((1 - p) ^ (-k) - 1) / k

/-- The point where `pdf` computes 0 to a negative power: the upper end of the support, for `xi < -1`. -/
def Top (k m s : ℝ) : Set ℝ := {x | k < -1 ∧ x = m - s / k}

variable {k m s : ℝ}

theorem validate_ok (hs : 0 < s) :
    validateParams (fin k) (fin m) (fin s) = .ok (fin k, fin m, fin s) := by
  simp [validateParams, hs]
theorem validate_bad (hs : ¬ 0 < s) :
    validateParams (fin k) (fin m) (fin s) = .error .valueError := by
  simp [validateParams, not_lt.1 hs]

theorem above_iff (hk : k < 0) (z : ℝ) : -1 / k < z ↔ 1 + k * z < 0 := by
  rw [div_lt_iff_of_neg hk]; constructor <;> intro h <;> linarith

theorem outside_eval (k z : ℝ) : outside (fin k) (fin z) = .ok (z < 0 ∨ 1 + k * z < 0) := by
  rcases lt_trichotomy k 0 with h | h | h
  · by_cases hz : z < 0
    · simp [outside, h, h.not_ge, hz]
    · simp [outside, h, h.not_ge, hz, fin_div _ h.ne, above_iff h]
  · subst h
    by_cases hz : z < 0
    · simp [outside, hz]
    · simp [outside, hz]
  · by_cases hz : z < 0
    · simp [outside, h.le, hz]
    · have : ¬ 1 + k * z < 0 := by have := mul_nonneg h.le (not_lt.1 hz); linarith
      simp [outside, h.not_gt, hz, this]

theorem base_pos_of_nonneg (hk : 0 ≤ k) {z : ℝ} (hz : 0 ≤ z) : 0 < 1 + k * z := by positivity

theorem neg_of_base {z : ℝ} (hz : 0 ≤ z) (h : 1 + k * z ≤ 0) : k < 0 := by
  by_contra hk; exact absurd (base_pos_of_nonneg (not_lt.1 hk) hz) (not_lt.2 h)

theorem cond_eval (k z : ℝ) (hz : ¬ z < 0) :
    (if fin k < 0 then (do return ((← (-1) /. fin k) < fin z)) else pure False : M Prop) =
      .ok (1 + k * z < 0) := by
  by_cases h : k < 0
  · simp [h, fin_div _ h.ne, above_iff h]
  · have := (base_pos_of_nonneg (not_lt.1 h) (not_lt.1 hz)).not_gt
    simp [h, this]

theorem lt_cond {z : ℝ} : ((0 ≤ fin k ∧ fin z < 0) ∨ (fin k < 0 ∧ fin z < 0)) ↔ z < 0 := by
  rcases lt_or_ge k 0 with h | h
  · simp [h, h.not_ge]
  · simp [h, h.not_gt]

theorem sf_eval (hs : 0 < s) (x : ℝ) :
    sf (fin x) (fin k) (fin m) (fin s) = .ok (fin (1 - F k ((x - m) / s))) := by
  set z := (x - m) / s with hz
  simp only [sf, validate_ok hs, ok_bind, fin_sub, fin_div _ hs.ne', ← hz, lt_cond, F]
  by_cases h : z < 0
  · simp [h]
  · simp only [h, if_false]
    rw [cond_eval k z h, ok_bind]
    by_cases h1 : 1 + k * z < 0
    · simp [h1]
    · by_cases hk : k = 0
      · simp [hk, G, (zero_lt_one' ℝ).not_gt]
      · have : 1 + k * z = 0 → 0 ≤ -1 / k := fun e => by
          have := neg_of_base (not_lt.1 h) e.le
          rw [neg_div]; exact neg_nonneg.2 (one_div_nonpos.2 this.le)
        simp [h1, hk, G, fin_div _ hk, power_of_nonneg (not_lt.1 h1) this]

theorem cdf_eval (hs : 0 < s) (x : ℝ) :
    cdf (fin x) (fin k) (fin m) (fin s) = .ok (fin (F k ((x - m) / s))) := by
  set z := (x - m) / s with hz
  simp only [cdf, validate_ok hs, ok_bind, fin_sub, fin_div _ hs.ne', ← hz, lt_cond, F]
  by_cases h : z < 0
  · simp [h]
  · simp only [h, if_false]
    rw [cond_eval k z h, ok_bind]
    by_cases h1 : 1 + k * z < 0
    · simp [h1]
    · by_cases hk : k = 0
      · simp [hk, G, (zero_lt_one' ℝ).not_gt]
      · have : 1 + k * z = 0 → 0 ≤ -1 / k := fun e => by
          have := neg_of_base (not_lt.1 h) e.le
          rw [neg_div]; exact neg_nonneg.2 (one_div_nonpos.2 this.le)
        simp [h1, hk, G, fin_div _ hk, mp.powm1, power_of_nonneg (not_lt.1 h1) this]

theorem top_iff (hs : 0 < s) (hk : k ≠ 0) (x : ℝ) : 1 + k * ((x - m) / s) = 0 ↔ x = m - s / k := by
  constructor
  · intro h; field_simp at h; field_simp; linarith
  · rintro rfl; field_simp; ring

theorem pdf_eval (hs : 0 < s) (x : ℝ) (hx : x ∉ Top k m s) :
    pdf (fin x) (fin k) (fin m) (fin s) = .ok (fin (f k ((x - m) / s) / s)) := by
  have ht := top_iff (k := k) (m := m) hs
  set z := (x - m) / s with hz
  simp only [pdf, validate_ok hs, ok_bind, fin_sub, fin_div _ hs.ne', ← hz, outside_eval, f]
  by_cases h : z < 0 ∨ 1 + k * z < 0
  · simp [h]
  · simp only [h, if_false]
    push Not at h
    by_cases hk : k = 0
    · simp [hk, g, fin_div _ hs.ne']
    · have h3 : 1 + k * z = 0 → 0 ≤ -(1 / k + 1) := fun e => by
        have hn := neg_of_base h.1 e.le
        have hge : -1 ≤ k := by
          by_contra hlt; exact hx ⟨not_le.1 hlt, (ht hk x).1 e⟩
        have : 1 / k ≤ -1 := by rw [div_le_iff_of_neg hn]; linarith
        linarith
      have h4 := power_of_nonneg (h.2) h3
      rw [mul_comm k z] at h4
      simp only [fin_eq, hk, not_false_eq_true, if_true, zero_def, one_def, fin_div _ hk, ok_bind, fin_add, fin_mul, neg_fin,
        h4, fin_div _ hs.ne', g, if_false]
      simp only [mul_comm]

theorem g_pos {z : ℝ} (h : 0 < 1 + k * z) : 0 < g k z := by
  unfold g; split_ifs <;> positivity

theorem f_nonneg (k z : ℝ) : 0 ≤ f k z := by
  unfold f
  split_ifs with h
  · exact le_rfl
  · push Not at h
    unfold g; split_ifs
    · positivity
    · exact Real.rpow_nonneg h.2 _

/-- The (closed) support. -/
def Supp (k m s : ℝ) : Set ℝ := {x | m ≤ x ∧ (k < 0 → x ≤ m - s / k)}

theorem mem_supp (hs : 0 < s) (x : ℝ) :
    x ∈ Supp k m s ↔ ¬ ((x - m) / s < 0 ∨ 1 + k * ((x - m) / s) < 0) := by
  simp only [Supp, mem_setOf_eq, not_or, not_lt, affine_ge_zero hs]
  refine and_congr_right fun hx => ?_
  have hz : 0 ≤ (x - m) / s := (affine_ge_zero hs).2 hx
  rcases lt_or_ge k 0 with h | h
  · simp only [h, forall_const]
    constructor
    · intro h1
      have : (x - m) / s ≤ -1 / k := by
        rw [div_le_iff₀ hs]; field_simp at h1 ⊢; linarith
      by_contra hc
      exact absurd ((above_iff h _).2 (not_le.1 hc)) (not_lt.2 this)
    · intro h1
      have h2 : (x - m) / s ≤ -1 / k := by
        by_contra hc
        exact absurd ((above_iff h _).1 (not_le.1 hc)) (not_lt.2 h1)
      rw [div_le_iff₀ hs] at h2
      have : -1 / k * s = -(s / k) := by ring
      linarith
  · simp only [h.not_gt, false_imp_iff, true_iff]
    exact (base_pos_of_nonneg h hz).le

theorem f_zero (hs : 0 < s) : ∀ x, x ∉ Supp k m s → f k ((x - m) / s) / s = 0 := by
  intro x hx
  rw [mem_supp hs, not_not] at hx
  simp [f, hx]

theorem hasDerivAt_G (k : ℝ) {z : ℝ} (h : 0 < 1 + k * z) : HasDerivAt (fun z => 1 - G k z) (g k z) z := by
  by_cases hk : k = 0
  · simp only [G, g, hk, if_true]
    refine (((hasDerivAt_neg z).exp).const_sub 1).congr_deriv ?_
    ring
  · simp only [G, g, hk, if_false]
    have h1 : HasDerivAt (fun z : ℝ => 1 + k * z) k z := by
      simpa using ((hasDerivAt_id z).const_mul k).const_add 1
    refine ((h1.rpow_const (p := -1 / k) (Or.inl h.ne')).const_sub 1).congr_deriv ?_
    rw [show -1 / k - 1 = -(1 / k + 1) by ring]
    field_simp

theorem isDist_std (k : ℝ) : IsDist (F k) (f k) := by
  rcases le_or_gt 0 k with hk | hk
  · refine isDist_Ioi (a := 0) (G := fun z => 1 - G k z) ?_ ?_ ?_ ?_ ?_ (f_nonneg k 0) ?_
      (fun x _ => f_nonneg k x) ?_
    · intro x hx
      rcases hx.eq_or_lt with rfl | h
      · simp [F, G]
      · simp [F, h]
    · intro x hx
      simp [F, hx.not_gt, (base_pos_of_nonneg hk hx.le).not_gt]
    · simp [G]
    · exact (hasDerivAt_G k (by simp)).continuousAt.continuousWithinAt
    · intro x hx; simp [f, hx]
    · intro x hx
      refine (hasDerivAt_G k (base_pos_of_nonneg hk hx.le)).congr_deriv ?_
      simp [f, hx.not_gt, (base_pos_of_nonneg hk hx.le).not_gt]
    · have : Tendsto (G k) atTop (𝓝 0) := by
        unfold G
        rcases hk.eq_or_lt with rfl | hk
        · simpa using Real.tendsto_exp_neg_atTop_nhds_zero
        · simp only [hk.ne', if_false, neg_div]
          exact (tendsto_rpow_neg_atTop (one_div_pos.2 hk)).comp
            (tendsto_atTop_add_const_left _ _ (tendsto_id.const_mul_atTop hk))
      simpa using this.const_sub 1
  · have hb : 0 < -1 / k := div_pos_of_neg_of_neg (by norm_num) hk
    have base : ∀ z, z < -1 / k → 0 < 1 + k * z := fun z hz => by
      rw [lt_div_iff_of_neg hk] at hz; linarith
    have hpos : 0 < -1 / k := hb
    refine isDist_Icc (a := 0) (b := -1 / k) (G := fun z => 1 - G k z) hb ?_ ?_ ?_ ?_ ?_ ?_ ?_ ?_
      (f_nonneg k 0) (f_nonneg k _) ?_ (fun x _ _ => f_nonneg k x)
    · intro x hx
      rcases hx.eq_or_lt with rfl | h
      · simp [F, G]
      · simp [F, h]
    · intro x hx
      have h0 : ¬ x < 0 := (hb.le.trans hx).not_gt
      rcases hx.eq_or_lt with h | h
      · have e : 1 + k * x = 0 := by rw [← h, mul_div_cancel₀ _ hk.ne]; norm_num
        simp [F, h0, e, G, hk.ne, Real.zero_rpow hpos.ne']
      · simp [F, h0, (above_iff hk x).1 h]
    · intro x hx h2
      simp [F, hx.not_gt, (base x h2).not_gt]
    · simp [G]
    · have e : 1 + k * (-1 / k) = 0 := by rw [mul_div_cancel₀ _ hk.ne]; norm_num
      simp [G, hk.ne, e, Real.zero_rpow hpos.ne']
    · have : Continuous (G k) := by
        unfold G; simp only [hk.ne, if_false]
        exact (by fun_prop : Continuous fun z : ℝ => 1 + k * z).rpow_const fun _ => Or.inr hpos.le
      exact (continuous_const.sub this).continuousOn
    · intro x hx; simp [f, hx]
    · intro x hx; simp [f, (above_iff hk x).1 hx]
    · intro x hx h2
      refine (hasDerivAt_G k (base x h2)).congr_deriv ?_
      simp [f, hx.not_gt, (base x h2).not_gt]

theorem isDist (hs : 0 < s) :
    IsDist (fun x => F k ((x - m) / s)) (fun x => f k ((x - m) / s) / s) := (isDist_std k).affine m hs

theorem invcdf_eval (hs : 0 < s) {p : ℝ} (h0 : 0 < p) (h1 : p < 1) :
    invcdf (fin p) (fin k) (fin m) (fin s) = .ok (fin (m + s * Q k p)) := by
  by_cases hk : k = 0
  · simp [invcdf, validate_ok hs, validateP_ok h0.le h1.le, h0.ne', h1.ne, hk, mp_log1p_neg h1, Q]; ring
  · simp [invcdf, validate_ok hs, validateP_ok h0.le h1.le, h0.ne', h1.ne, hk, fin_div _ hk,
      fun_.pow1pm1_eval _ (show -1 < -p by linarith), Q]
    rw [← sub_eq_add_neg]; ring
theorem invsf_eval (hs : 0 < s) {p : ℝ} (h0 : 0 < p) (h1 : p < 1) :
    invsf (fin p) (fin k) (fin m) (fin s) = .ok (fin (m + s * Q k (1 - p))) := by
  by_cases hk : k = 0
  · simp [invsf, validate_ok hs, validateP_ok h0.le h1.le, h0.ne', h1.ne, hk, mp.log_pos h0, Q]; ring
  · simp [invsf, validate_ok hs, validateP_ok h0.le h1.le, h0.ne', h1.ne, hk, fin_div _ hk,
      mp.powm1_pos h0, Q]
    ring

/-- Interior of the standard support. -/
def SInt (k : ℝ) : Set ℝ := {z | 0 < z ∧ 0 < 1 + k * z}

theorem base_Q (hk : k ≠ 0) (p : ℝ) : 1 + k * Q k p = (1 - p) ^ (-k) := by
  simp only [Q, hk, if_false]; field_simp; ring

theorem F_Q (_ : 0 < s) {p : ℝ} (h0 : 0 < p) (h1 : p < 1) : Q k p ∈ SInt k ∧ F k (Q k p) = p := by
  have hq : 0 < 1 - p := by linarith
  have hq1 : 1 - p < 1 := by linarith
  have hb : 0 < 1 + k * Q k p := by
    by_cases hk : k = 0
    · simp [hk]
    · rw [base_Q hk]; positivity
  have hz : 0 < Q k p := by
    unfold Q
    rcases lt_trichotomy k 0 with h | h | h
    · simp only [h.ne, if_false]
      refine div_pos_of_neg_of_neg ?_ h
      have := Real.rpow_lt_one hq.le hq1 (neg_pos.2 h); linarith
    · simp only [h, if_true]; have := Real.log_neg hq hq1; linarith
    · simp only [h.ne', if_false]
      refine div_pos ?_ h
      have := Real.one_lt_rpow_of_pos_of_lt_one_of_neg hq hq1 (neg_lt_zero.2 h); linarith
  refine ⟨⟨hz, hb⟩, ?_⟩
  simp only [F, hz.not_gt, hb.not_gt, if_false, G]
  by_cases hk : k = 0
  · simp [hk, Q, Real.exp_log hq]
  · rw [if_neg hk, base_Q hk, ← Real.rpow_mul hq.le]
    have : -k * (-1 / k) = 1 := by field_simp
    rw [this, Real.rpow_one]; ring

theorem Q_F (_ : 0 < s) {z : ℝ} (hz : z ∈ SInt k) : 0 < F k z ∧ F k z < 1 ∧ Q k (F k z) = z := by
  obtain ⟨h0, hb⟩ := hz
  have e : F k z = 1 - G k z := by simp [F, h0.not_gt, hb.not_gt]
  have hG : 0 < G k z := by unfold G; split_ifs <;> positivity
  have hQ : Q k (1 - G k z) = z := by
    unfold Q G
    by_cases hk : k = 0
    · simp [hk]
    · simp only [hk, if_false, sub_sub_cancel]
      rw [← Real.rpow_mul hb.le]
      have : -1 / k * -k = 1 := by field_simp
      rw [this, Real.rpow_one]; field_simp; ring
  have hG1 : G k z < 1 := by
    unfold G
    rcases lt_trichotomy k 0 with h | h | h
    · simp only [h.ne, if_false]
      exact Real.rpow_lt_one hb.le (by nlinarith) (div_pos_of_neg_of_neg (by norm_num) h)
    · simp only [h, if_true]; rw [Real.exp_lt_one_iff]; linarith
    · simp only [h.ne', if_false]
      exact Real.rpow_lt_one_of_one_lt_of_neg (by nlinarith) (div_neg_of_neg_of_pos (by norm_num) h)
  rw [e]
  exact ⟨by linarith, by linarith, hQ⟩

/-- The open support. -/
def Inner (k m s : ℝ) : Set ℝ := {x | m < x ∧ (k < 0 → x < m - s / k)}

theorem preimage_SInt (hs : 0 < s) : (fun x => (x - m) / s) ⁻¹' SInt k = Inner k m s := by
  ext x
  simp only [SInt, Inner, mem_preimage, mem_setOf_eq, affine_gt_zero hs]
  refine and_congr_right fun hx => ?_
  have hz : 0 < (x - m) / s := (affine_gt_zero hs).2 hx
  rcases lt_or_ge k 0 with h | h
  · simp only [h, forall_const]
    have e : x < m - s / k ↔ (x - m) / s < -1 / k := by
      rw [div_lt_iff₀ hs]
      have : -1 / k * s = -(s / k) := by ring
      rw [this]; constructor <;> intro h <;> linarith
    rw [e, lt_div_iff_of_neg h]; constructor <;> intro h <;> linarith
  · simp only [h.not_gt, false_imp_iff, iff_true]
    exact base_pos_of_nonneg h hz.le

/-! ### logpdf -/

theorem logpdf_pos (hs : 0 < s) {x : ℝ} (h0 : m ≤ x) (hb : 0 < 1 + k * ((x - m) / s)) :
    logpdf (fin x) (fin k) (fin m) (fin s) = .ok (fin (Real.log (f k ((x - m) / s) / s))) := by
  have hz : 0 ≤ (x - m) / s := (affine_ge_zero hs).2 h0
  set z := (x - m) / s with hzd
  have ho : ¬ (z < 0 ∨ 1 + k * z < 0) := by push Not; exact ⟨hz, hb.le⟩
  rw [f, if_neg ho, Real.log_div (g_pos hb).ne' hs.ne']
  simp only [logpdf, validate_ok hs, ok_bind, fin_sub, fin_div _ hs.ne', ← hzd, outside_eval, ho, if_false,
    mp.log_pos hs]
  by_cases hk : k = 0
  · simp [hk, g]
  · simp [hk, g, fin_div _ hk, mp.log_pos hb, Real.log_rpow hb]
theorem logpdf_out (hs : 0 < s) {x : ℝ} (hx : x ∉ Supp k m s) :
    logpdf (fin x) (fin k) (fin m) (fin s) = .ok ninf := by
  rw [mem_supp hs, not_not] at hx
  simp only [logpdf, validate_ok hs, ok_bind, fin_sub, fin_div _ hs.ne', outside_eval, hx, if_true, pure_eq_ok]
/-- At the upper end of the support. -/
theorem logpdf_top (hs : 0 < s) (hk : k < 0) :
    logpdf (fin (m - s / k)) (fin k) (fin m) (fin s) =
      .ok (if -1 < k then ninf else if k = -1 then nan else pinf) := by
  have e : 1 + k * ((m - s / k - m) / s) = 0 := (top_iff hs hk.ne _).2 rfl
  have hz : ¬ (m - s / k - m) / s < 0 := by
    rw [affine_lt_zero hs, not_lt]
    have : s / k < 0 := div_neg_of_pos_of_neg hs hk
    linarith
  simp only [logpdf, validate_ok hs, ok_bind, fin_sub, fin_div _ hs.ne', outside_eval, e, hz, lt_irrefl, or_self, if_false,
    mp.log_pos hs, fin_eq, hk.ne, zero_def, one_def, not_false_eq_true, if_true, fin_div _ hk.ne, fin_mul, fin_add, mp.log_zero,
    neg_fin, pure_eq_ok]
  rcases lt_trichotomy k (-1) with h | h | h
  · have h1 : -(1 / k + 1) < 0 := by
      have : -1 < 1 / k := by rw [lt_div_iff_of_neg hk]; linarith
      linarith
    rw [one_div] at h1
    simp [h.ne, h.not_gt, scaleInf_neg h1, -neg_add_rev]
  · subst h; norm_num
  · have h1 : 0 < -(1 / k + 1) := by
      have : 1 / k < -1 := by rw [div_lt_iff_of_neg hk]; linarith
      linarith
    rw [one_div] at h1
    simp [h, scaleInf_pos h1, -neg_add_rev]

/-! ### Moments -/

theorem int01_1m_rpow {a : ℝ} (ha : -1 < a) : Int01 (fun p => (1 - p) ^ a) (1 / (a + 1)) :=
  (int01_rpow ha).reflect

theorem int01_Q (h : k < 1) : Int01 (Q k) (1 / (1 - k)) := by
  by_cases hk : k = 0
  · subst hk
    have := int01_log1m.neg
    simp only [neg_neg, sub_zero, div_one] at this ⊢
    exact this.congr fun p _ _ => by simp [Q]
  · have h1 := (((int01_1m_rpow (a := -k) (by linarith)).sub (Int01.const 1)).mul (1 / k))
    have e : 1 / k * (1 / (-k + 1) - 1) = 1 / (1 - k) := by
      have : 1 - k ≠ 0 := by linarith
      rw [show -k + 1 = 1 - k by ring]; field_simp; ring
    rw [e] at h1
    exact h1.congr fun p _ _ => by simp only [Q, hk, if_false]; ring

theorem int01_Q2 (h : k < 1 / 2) : Int01 (fun p => Q k p ^ 2) (2 / ((1 - k) * (1 - 2 * k))) := by
  by_cases hk : k = 0
  · subst hk
    norm_num
    exact int01_log1m_sq.congr fun p _ _ => by simp [Q]
  · have h1 := ((((int01_1m_rpow (a := -(2 * k)) (by linarith)).sub
      ((int01_1m_rpow (a := -k) (by linarith)).mul 2)).add (Int01.const 1)).mul (1 / k ^ 2))
    have e : 1 / k ^ 2 * (1 / (-(2 * k) + 1) - 2 * (1 / (-k + 1)) + 1) = 2 / ((1 - k) * (1 - 2 * k)) := by
      have : 1 - k ≠ 0 := by linarith
      have : 1 - 2 * k ≠ 0 := by linarith
      rw [show -k + 1 = 1 - k by ring, show -(2 * k) + 1 = 1 - 2 * k by ring]
      have e1 : (1 - k) * (1 - k)⁻¹ = 1 := mul_inv_cancel₀ ‹1 - k ≠ 0›
      have e2 : (1 - 2 * k) * (1 - 2 * k)⁻¹ = 1 := mul_inv_cancel₀ this
      have e3 : k ^ 2 * (k ^ 2)⁻¹ = 1 := mul_inv_cancel₀ (pow_ne_zero _ hk)
      rw [eq_div_iff (mul_ne_zero ‹1 - k ≠ 0› this)]
      simp only [one_div]
      linear_combination 2 * e3 + (k ^ 2)⁻¹ * (1 - k) * e2 - 2 * (k ^ 2)⁻¹ * (1 - 2 * k) * e1
    rw [e] at h1
    refine h1.congr fun p h0 h1 => ?_
    have hq : 0 < 1 - p := by linarith
    have e2 : (1 - p) ^ (-(2 * k)) = (1 - p) ^ (-k) * (1 - p) ^ (-k) := by
      rw [← Real.rpow_add hq]; ring_nf
    simp only [Q, hk, if_false, e2]; ring

theorem hasM_std (h : k < 1) : HasM (f k) (1 / (1 - k)) :=
  HasM.of_int01 (isDist_std k) (fun p h0 h1 => (F_Q one_pos h0 h1).2) (int01_Q h)

theorem hasMV_std (h : k < 1 / 2) : HasMV (f k) (1 / (1 - k)) (1 / (1 - k) ^ 2 / (1 - 2 * k)) := by
  refine HasMV.of_int01 (isDist_std k) (fun p h0 h1 => (F_Q one_pos h0 h1).2) (int01_Q (by linarith)) (int01_Q2 h) ?_
  have : 1 - k ≠ 0 := by linarith
  have : 1 - 2 * k ≠ 0 := by linarith
  field_simp; ring

theorem hasEnt_std (k : ℝ) : HasEnt (f k) (k + 1) := by
  refine HasEnt.of_int01 (isDist_std k) (fun p h0 h1 => (F_Q one_pos h0 h1).2) ?_
  have h := int01_log1m.mul (-(1 + k))
  rw [show -(1 + k) * -1 = k + 1 by ring] at h
  refine h.congr fun p h0 h1 => ?_
  have hq : 0 < 1 - p := by linarith
  obtain ⟨hz, hb⟩ := (F_Q (k := k) one_pos h0 h1).1
  have ho : ¬ (Q k p < 0 ∨ 1 + k * Q k p < 0) := by push Not; exact ⟨hz.le, hb.le⟩
  rw [f, if_neg ho, g]
  by_cases hk : k = 0
  · simp [hk, Q]
  · rw [if_neg hk, base_Q hk, ← Real.rpow_mul hq.le, Real.log_rpow hq]
    field_simp

theorem finite_Top (k m s : ℝ) : (Top k m s).Finite := (finite_singleton (m - s / k)).subset fun _ h => h.2

theorem not_int_Q (h : 1 ≤ k) : ¬ MeasureTheory.IntegrableOn (Q k) (Ioo 0 1) := by
  have hk : k ≠ 0 := by linarith
  have h1 : ¬ MeasureTheory.IntegrableOn (fun p : ℝ => (1 - p) ^ (-k)) (Ioo 0 1) := fun hi =>
    not_integrableOn_rpow (a := -k) (by linarith) (integrableOn_reflect hi)
  have := not_integrableOn_affine (a := -1 / k) (inv_ne_zero hk) h1
  refine fun hi => this (hi.congr (Filter.Eventually.of_forall fun p => ?_))
  simp only [Q, hk, if_false]; field_simp; ring

theorem not_int_Q2 (h : 1 / 2 ≤ k) (m : ℝ) (hs : 0 < s) :
    ¬ MeasureTheory.IntegrableOn (fun p => (m + s * Q k p) ^ 2) (Ioo 0 1) := by
  have hk : k ≠ 0 := by linarith
  intro hi
  have hq1 : MeasureTheory.IntegrableOn (fun p => m + s * Q k p) (Ioo 0 1) := by
    have i0 : MeasureTheory.IntegrableOn (fun _ : ℝ => (1:ℝ)) (Ioo (0:ℝ) 1) := (Int01.const 1).1
    have hm : MeasureTheory.AEStronglyMeasurable (fun p => m + s * Q k p) (MeasureTheory.volume.restrict (Ioo 0 1)) := by
      have : Measurable (fun p => m + s * Q k p) := by simp only [Q, hk, if_false]; fun_prop
      exact this.aestronglyMeasurable
    refine MeasureTheory.Integrable.mono' (hi.add i0) hm (Filter.Eventually.of_forall fun p => ?_)
    simp only [Pi.add_apply, Real.norm_eq_abs]
    nlinarith [sq_abs (m + s * Q k p), sq_nonneg (|m + s * Q k p| - 1)]
  have hq2 : MeasureTheory.IntegrableOn (fun p : ℝ => (1 - p) ^ (-(2 * k))) (Ioo 0 1) := by
    have i0 : MeasureTheory.IntegrableOn (fun _ : ℝ => (1 - k / s * m) ^ 2) (Ioo (0:ℝ) 1) := (Int01.const _).1
    have := ((hi.const_mul ((k / s) ^ 2)).add (hq1.const_mul (2 * (1 - k / s * m) * (k / s)))).add i0
    refine MeasureTheory.IntegrableOn.congr_fun this (fun p hp => ?_) measurableSet_Ioo
    have hq : 0 < 1 - p := by linarith [hp.2]
    have e1 : (1 - p) ^ (-(2 * k)) = (1 - p) ^ (-k) * (1 - p) ^ (-k) := by
      rw [← Real.rpow_add hq]; ring_nf
    simp only [Pi.add_apply, Q, hk, if_false, e1]; field_simp; ring
  exact not_integrableOn_rpow (a := -(2 * k)) (by linarith) (integrableOn_reflect hq2)

end Mpsci.genpareto
