import Verif.Lemmas.Fit.Pareto
import Verif.Lemmas.Dist.Kumaraswamy
import Mathlib.Analysis.Convex.SpecificFunctions.Basic
import Mathlib.Analysis.Convex.Slope

/-! `kumaraswamy.nll` and the likelihood of the Kumaraswamy distribution. -/

namespace Mpsci

/-- `w / (1 - e^{-w})` increases and `w / (e^w - 1)` decreases. -/
theorem div_one_sub_exp_mono {w w' : ℝ} (hw : 0 < w) (h : w ≤ w') :
    w / (1 - Real.exp (-w)) ≤ w' / (1 - Real.exp (-w')) := by
  have hw' := hw.trans_le h
  have h1 := convexOn_exp.secant_mono (a := 0) (x := -w') (y := -w) trivial trivial trivial (by linarith) (by linarith)
    (by linarith)
  have e1 : 0 < 1 - Real.exp (-w) := by have := Real.exp_lt_one_iff.2 (show -w < 0 by linarith); linarith
  have e2 : 0 < 1 - Real.exp (-w') := by have := Real.exp_lt_one_iff.2 (show -w' < 0 by linarith); linarith
  rw [Real.exp_zero, sub_zero, sub_zero, show (Real.exp (-w') - 1) / -w' = (1 - Real.exp (-w')) / w' by field_simp; ring,
    show (Real.exp (-w) - 1) / -w = (1 - Real.exp (-w)) / w by field_simp; ring, div_le_div_iff₀ hw' hw] at h1
  rw [div_le_div_iff₀ e1 e2]
  linarith

theorem div_exp_sub_one_anti {w w' : ℝ} (hw : 0 < w) (h : w ≤ w') :
    w' / (Real.exp w' - 1) ≤ w / (Real.exp w - 1) := by
  have hw' := hw.trans_le h
  have h1 := convexOn_exp.secant_mono (a := 0) (x := w) (y := w') trivial trivial trivial hw.ne' hw'.ne' h
  have e1 : 0 < Real.exp w - 1 := by have := Real.one_lt_exp_iff.2 hw; linarith
  have e2 : 0 < Real.exp w' - 1 := by have := Real.one_lt_exp_iff.2 hw'; linarith
  rw [Real.exp_zero, sub_zero, sub_zero, div_le_div_iff₀ hw hw'] at h1
  rw [div_le_div_iff₀ e2 e1]
  linarith

end Mpsci

namespace Mpsci.kumaraswamy

open Classical Num Spec common

variable {a b : ℝ} {xs : List ℝ}

noncomputable def l (a b x : ℝ) : ℝ := Real.log a + Real.log b + (a - 1) * Real.log x + (b - 1) * Real.log (1 - x ^ a)

theorem logpdf_l (ha : 0 < a) (hb : 0 < b) {x : ℝ} (h : x ∈ Set.Ioo (0:ℝ) 1) :
    logpdf (fin x) (fin a) (fin b) = .ok (fin (l a b x)) := by
  obtain ⟨h0, h1⟩ := h
  have h3 : -1 < -(x ^ a) := by have := rpow_lt ha h0.le h1; linarith
  simp only [logpdf, validate_ok ha hb, ok_bind, zero_def, one_def, fin_lt, h0.not_gt, h1.not_gt,
    or_self, if_false, mp.log_pos ha, mp.log_pos hb, mp.log_pos h0, mp.power_pos h0, neg_fin,
    mp.log1p_pos h3, fin_sub, fin_mul, fin_add, pure_eq_ok, ← sub_eq_add_neg, l]

theorem bounds (h : ∀ x ∈ xs, x ∈ Set.Ioo (0:ℝ) 1) :
    validateXBounds (xs.map fin) (some (fin 0)) (some (fin 1)) true true = .ok (xs.map fin) :=
  validateXBounds_ok (by rw [badLow_strict]; push Not; exact fun x hx => (h x hx).1)
    (by rw [badHigh_strict]; push Not; exact fun x hx => (h x hx).2)

theorem bounds_bad (h : ∃ x ∈ xs, x ∉ Set.Ioo (0:ℝ) 1) :
    validateXBounds (xs.map fin) (some (fin 0)) (some (fin 1)) true true = .error .valueError := by
  by_cases h1 : badLow (xs.map fin) (some (fin 0)) true
  · exact validateXBounds_low h1
  · refine validateXBounds_high ?_
    rw [badLow_strict] at h1
    push Not at h1
    obtain ⟨x, hx, h2⟩ := h
    exact badHigh_strict.2 ⟨x, hx, by by_contra h3; exact h2 ⟨h1 x hx, not_le.1 h3⟩⟩

theorem nll_unfold (ha : 0 < a) (hb : 0 < b) (h : ∀ x ∈ xs, x ∈ Set.Ioo (0:ℝ) 1) : nll (xs.map fin) (fin a) (fin b) =
    (do return -(mp.fsum (← (xs.map fin).mapM (logpdf · (fin a) (fin b))))) := by
  simp only [nll, validate_ok ha hb, ok_bind, zero_def, one_def, bounds h]

/-- The means of `log(1 - x^a)` and of `x^a log x/(1 - x^a)`. -/
noncomputable def B (xs : List ℝ) (a : ℝ) : ℝ := sampleMean (xs.map fun x => Real.log (1 - x ^ a))
noncomputable def S (xs : List ℝ) (a : ℝ) : ℝ := sampleMean (xs.map fun x => x ^ a * Real.log x / (1 - x ^ a))

/-- The negative log-likelihood per observation. -/
noncomputable def N (xs : List ℝ) (a b : ℝ) : ℝ :=
  -Real.log a - Real.log b - (a - 1) * sampleMean (xs.map Real.log) - (b - 1) * B xs a

theorem nll_eval (hn : xs ≠ []) (ha : 0 < a) (hb : 0 < b) (h : ∀ x ∈ xs, x ∈ Set.Ioo (0:ℝ) 1) :
    nll (xs.map fin) (fin a) (fin b) = .ok (fin (xs.length * N xs a b)) := by
  rw [nll_unfold ha hb h, mapM_logpdf fun x hx => logpdf_l ha hb (h x hx)]
  simp only [ok_bind, mp.fsum_fin, neg_fin, pure_eq_ok]
  have e : ∀ x, l a b x = ((Real.log a + Real.log b) + (a - 1) * Real.log x) + (b - 1) * Real.log (1 - x ^ a) :=
    fun x => by rw [l]
  rw [List.map_congr_left fun x _ => e x, List.sum_map_add, sum_map_affine xs Real.log, sum_eq_mean hn Real.log,
    List.sum_map_mul_left, sum_eq_mean hn (fun x => Real.log (1 - x ^ a)), N, B]
  congr 2; ring

theorem B_neg (hn : xs ≠ []) (ha : 0 < a) (h : ∀ x ∈ xs, x ∈ Set.Ioo (0:ℝ) 1) : B xs a < 0 := by
  have h1 : ∀ x ∈ xs, 0 < -1 * Real.log (1 - x ^ a) := fun x hx => by
    have h2 := rpow_lt ha (h x hx).1.le (h x hx).2
    have h3 := Real.rpow_pos_of_pos (h x hx).1 a
    have := Real.log_neg h2 (by linarith)
    linarith
  obtain ⟨y, hy⟩ := List.exists_mem_of_ne_nil _ hn
  have := sampleMean_pos (φ := fun x => -1 * Real.log (1 - x ^ a)) (fun x hx => (h1 x hx).le) ⟨y, hy, h1 y hy⟩
  rw [sampleMean_mul] at this
  rw [B]; linarith

theorem S2_eval (hn : xs ≠ []) (ha : 0 < a) (h : ∀ x ∈ xs, x ∈ Set.Ioo (0:ℝ) 1) :
    mleS2 (fin a) (xs.map fin) = .ok (fin (xs.length * B xs a)) := by
  have h1 : (xs.map fin).mapM (fun t => do mp.log1p (-(← mp.power t (fin a)))) =
      .ok ((xs.map fun x => Real.log (1 - x ^ a)).map fin) := mapM_logpdf fun x hx => by
    have h3 : -1 < -(x ^ a) := by have := rpow_lt ha (h x hx).1.le (h x hx).2; linarith
    simp only [mp.power_pos (h x hx).1, ok_bind, neg_fin, mp.log1p_pos h3, ← sub_eq_add_neg]
  rw [mleS2, h1, ok_bind, mp.fsum_fin, sum_eq_mean hn (fun x => Real.log (1 - x ^ a)), pure_eq_ok, B]

theorem S3_eval (hn : xs ≠ []) (ha : 0 < a) (h : ∀ x ∈ xs, x ∈ Set.Ioo (0:ℝ) 1) :
    mleS3 (fin a) (xs.map fin) = .ok (fin (xs.length * S xs a)) := by
  have h1 : (xs.map fin).mapM (fun t => do (← mp.power t (fin a)) * (← mp.log t) /. -(← mp.powm1 t (fin a))) =
      .ok ((xs.map fun x => x ^ a * Real.log x / (1 - x ^ a)).map fin) := mapM_logpdf fun x hx => by
    have h3 : 1 - x ^ a ≠ 0 := (rpow_lt ha (h x hx).1.le (h x hx).2).ne'
    simp only [mp.power_pos (h x hx).1, ok_bind, mp.powm1_pos (h x hx).1, mp.log_pos (h x hx).1, neg_fin, fin_mul, fin_div _ h3, neg_sub]
  rw [mleS3, h1, ok_bind, mp.fsum_fin, sum_eq_mean hn (fun x => x ^ a * Real.log x / (1 - x ^ a)), pure_eq_ok, S]

theorem aEqnBFixed_eval (hn : xs ≠ []) (ha : 0 < a) (h : ∀ x ∈ xs, x ∈ Set.Ioo (0:ℝ) 1) :
    mleAEqnBFixed (fin a) (fin b) (xs.map fin) (fin (xs.length * sampleMean (xs.map Real.log))) =
    .ok (fin (xs.length * (1 / a + sampleMean (xs.map Real.log) + (1 - b) * S xs a))) := by
  simp only [mleAEqnBFixed, S3_eval hn ha h, ok_bind, len_fin, fin_div _ ha.ne', one_def, fin_sub, fin_mul, fin_add, pure_eq_ok]
  congr 2; ring

theorem aEqn_eval (hn : xs ≠ []) (ha : 0 < a) (h : ∀ x ∈ xs, x ∈ Set.Ioo (0:ℝ) 1) :
    mleAEqn (fin a) (xs.map fin) (fin (xs.length * sampleMean (xs.map Real.log))) =
    .ok (fin (xs.length * (1 / a + sampleMean (xs.map Real.log) + (1 - -1 / B xs a) * S xs a))) := by
  have h1 := (length_pos hn).ne'
  have h2 := (B_neg hn ha h).ne
  have h3 : xs.length * B xs a ≠ 0 := mul_ne_zero h1 h2
  simp only [mleAEqn, S2_eval hn ha h, S3_eval hn ha h, ok_bind, len_fin, fin_div _ ha.ne', fin_div _ h3, one_def, fin_sub, fin_mul, fin_add,
    pure_eq_ok]
  congr 2; field_simp; ring

theorem sumlog_eval (hn : xs ≠ []) (h : ∀ x ∈ xs, x ∈ Set.Ioo (0:ℝ) 1) :
    (xs.map fin).mapM mp.log = .ok ((xs.map Real.log).map fin) ∧
    mp.fsum ((xs.map Real.log).map fin) = fin (xs.length * sampleMean (xs.map Real.log)) :=
  ⟨mapM_logpdf fun x hx => mp.log_pos (h x hx).1, by rw [mp.fsum_fin, sum_eq_mean hn]⟩

theorem hasDerivAt_N (ha : 0 < a) (b : ℝ) (h : ∀ x ∈ xs, x ∈ Set.Ioo (0:ℝ) 1) :
    HasDerivAt (fun a => N xs a b) (-(1 / a + sampleMean (xs.map Real.log) + (1 - b) * S xs a)) a := by
  have hB : HasDerivAt (fun a => B xs a) (sampleMean (xs.map fun x => -1 * (x ^ a * Real.log x / (1 - x ^ a)))) a := by
    refine hasDerivAt_mean fun x hx => ?_
    have h2 := rpow_lt ha (h x hx).1.le (h x hx).2
    have h3 := (Real.hasStrictDerivAt_const_rpow (h x hx).1 a).hasDerivAt
    exact ((h3.const_sub 1).log h2.ne').congr_deriv (by ring)
  rw [sampleMean_mul] at hB
  refine (((((hasDerivAt_id a).log ha.ne').neg.sub_const (Real.log b)).sub
    (((hasDerivAt_id a).sub_const 1).mul_const (sampleMean (xs.map Real.log)))).sub (hB.const_mul (b - 1))).congr_deriv ?_
  simp only [id, S]; ring

/-- `a` times the score is a mean of increasing functions of `a`. -/
noncomputable def g (b w : ℝ) : ℝ := w + (1 - b) * (w / (Real.exp w - 1))

theorem g_mono (hb : 0 < b) {w w' : ℝ} (hw : 0 < w) (h : w ≤ w') : g b w ≤ g b w' := by
  rcases le_total b 1 with h1 | h1
  · have e : ∀ w, 0 < w → g b w = b * w + (1 - b) * (w / (1 - Real.exp (-w))) := fun w hw => by
      have e1 : 0 < Real.exp w - 1 := by have := Real.one_lt_exp_iff.2 hw; linarith
      have e2 : 1 - Real.exp (-w) = (Real.exp w - 1) / Real.exp w := by rw [Real.exp_neg]; field_simp
      rw [g, e2]; field_simp; ring
    rw [e w hw, e w' (hw.trans_le h)]
    have := mul_le_mul_of_nonneg_left (div_one_sub_exp_mono hw h) (sub_nonneg.2 h1)
    have := mul_le_mul_of_nonneg_left h hb.le
    linarith
  · have := mul_le_mul_of_nonneg_left (div_exp_sub_one_anti hw h) (sub_nonneg.2 h1)
    simp only [g]
    linarith

theorem score_eq (hn : xs ≠ []) (ha : 0 < a) (h : ∀ x ∈ xs, x ∈ Set.Ioo (0:ℝ) 1) :
    a * (1 / a + sampleMean (xs.map Real.log) + (1 - b) * S xs a) = 1 - sampleMean (xs.map fun x => g b (a * -Real.log x)) := by
  have e : sampleMean (xs.map fun x => g b (a * -Real.log x)) =
      sampleMean (xs.map fun x => -a * Real.log x + (-(a * (1 - b))) * (x ^ a * Real.log x / (1 - x ^ a))) :=
    sampleMean_congr fun x hx => by
      have h2 := rpow_lt ha (h x hx).1.le (h x hx).2
      have h3 := Real.rpow_pos_of_pos (h x hx).1 a
      have e1 : Real.exp (a * -Real.log x) = 1 / x ^ a := by
        rw [Real.rpow_def_of_pos (h x hx).1, one_div, ← Real.exp_neg]; congr 1; ring
      have e2 : 1 / x ^ a - 1 = (1 - x ^ a) / x ^ a := by field_simp
      rw [g, e1, e2]; field_simp
  rw [e, sampleMean_add, sampleMean_mul, sampleMean_mul, S]
  field_simp; ring

/-- A root of the equation for fixed `b` maximises the likelihood over all `a`. -/
theorem a_min (hn : xs ≠ []) (ha : 0 < a) (hb : 0 < b) (h : ∀ x ∈ xs, x ∈ Set.Ioo (0:ℝ) 1)
    (h0 : 1 / a + sampleMean (xs.map Real.log) + (1 - b) * S xs a = 0) {a' : ℝ} (ha' : 0 < a') : N xs a b ≤ N xs a' b := by
  have h1 := score_eq (b := b) hn ha h
  rw [h0, mul_zero] at h1
  have hw : ∀ x ∈ xs, 0 < -Real.log x := fun x hx => by have := Real.log_neg (h x hx).1 (h x hx).2; linarith
  have hsign : ∀ t, 0 < t → (t ≤ a → 0 ≤ 1 / t + sampleMean (xs.map Real.log) + (1 - b) * S xs t) ∧
      (a ≤ t → 1 / t + sampleMean (xs.map Real.log) + (1 - b) * S xs t ≤ 0) := fun t ht => by
    have h2 := score_eq (b := b) hn ht h
    constructor <;> intro hta
    · have h3 : sampleMean (xs.map fun x => g b (t * -Real.log x)) ≤ sampleMean (xs.map fun x => g b (a * -Real.log x)) :=
        sampleMean_le fun x hx => g_mono hb (mul_pos ht (hw x hx)) (mul_le_mul_of_nonneg_right hta (hw x hx).le)
      refine nonneg_of_mul_nonneg_right (a := t) ?_ ht
      rw [h2]; linarith
    · have h3 : sampleMean (xs.map fun x => g b (a * -Real.log x)) ≤ sampleMean (xs.map fun x => g b (t * -Real.log x)) :=
        sampleMean_le fun x hx => g_mono hb (mul_pos ha (hw x hx)) (mul_le_mul_of_nonneg_right hta (hw x hx).le)
      by_contra h4
      have := mul_pos ht (not_le.1 h4)
      rw [h2] at this; linarith
  exact min_of_deriv_sign (h := fun a => N xs a b) (fun t ht => hasDerivAt_N ht b h) ha
    (fun t ht hta => by have := (hsign t ht).1 hta.le; linarith) (fun t hta => by have := (hsign t (ha.trans hta)).2 hta.le; linarith) ha'

/-- `b = -1/B` maximises the likelihood for given `a`. -/
theorem b_min (hB : B xs a < 0) (hb : 0 < b) : N xs a (-1 / B xs a) ≤ N xs a b := by
  have h := mul_sub_log_min (A := -B xs a) (by linarith) hb
  have e : -1 / B xs a = 1 / -B xs a := by rw [div_neg, neg_div]
  rw [e]
  simp only [N]
  linarith

end Mpsci.kumaraswamy
