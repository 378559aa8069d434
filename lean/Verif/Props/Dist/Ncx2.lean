import Verif.Lemmas.Dist.Ncx2
import Verif.Lemmas.Dist.Chi2

/-! Properties of `ncx2`. -/

namespace Mpsci.ncx2

open Classical Num Spec Filter Topology Set

variable {k l : ℝ}

/-- C01, C63 -/
theorem complementary (hk : 0 < k) (hl : 0 ≤ l) : Complementary (cdf · (fin k) (fin l)) (sf · (fin k) (fin l)) :=
  complementary_of (cdf_eval hk hl) (sf_eval hk hl)

/-- C02 -/
theorem isCdf (hk : 0 < k) (hl : 0 ≤ l) : IsCdf (cdf · (fin k) (fin l)) := (isDist hk hl).isCdf (cdf_eval hk hl)

theorem pdf_off (hl : 0 < l) : RealFnOff (E k) (pdf · (fin k) (fin l)) (f k l) := fun _ hx => pdf_eval hl hx

/-- C03, C63: for `lam > 0`, away from 0 when `k ≤ 2` -/
theorem isDensity (hk : 0 < k) (hl : 0 < l) : IsDensity (E k) (Ici 0) (pdf · (fin k) (fin l)) (cdf · (fin k) (fin l)) :=
  (isDist hk hl.le).isDensity (pdf_off hl) (cdf_eval hk hl.le) fun _ hx => f_nonpos (not_le.1 hx).le

/-- C03: for two degrees of freedom the value at 0 is the limit of the density from the right. -/
theorem pdf_zero_limit (hl : 0 < l) : ∃ (g : ℝ → ℝ) (v : ℝ), (∀ x : ℝ, 0 < x → pdf (fin x) 2 (fin l) = .ok (fin (g x))) ∧
    pdf (fin 0) 2 (fin l) = .ok (fin v) ∧ 0 < v ∧ Tendsto g (𝓝[>] 0) (𝓝 v) :=
  ⟨f 2 l, _, fun _ hx => pdf_pos hl hx, pdf_zero_two hl, by positivity, tendsto_f_two l⟩

/-- C03 fails for `lam = 0`, the central case: `pdf` divides by zero at every nonnegative `x`, although `cdf` and `sf` accept it. -/
theorem pdf_central_fails (hk : 0 < k) {x : ℝ} (hx : 0 ≤ x) : pdf (fin x) (fin k) 0 = .error .zeroDivision ∧
    (∃ c : ℝ, cdf (fin x) (fin k) 0 = .ok (fin c)) ∧ ∃ s : ℝ, sf (fin x) (fin k) 0 = .ok (fin s) := by
  refine ⟨?_, ⟨_, cdf_eval hk le_rfl x⟩, ⟨_, sf_eval hk le_rfl x⟩⟩
  simp only [pdf, zero_def, one_def, fin_lt, hx.not_gt, if_false, ofNat_def, Nat.cast_ofNat, fin_div _ two_ne, ok_bind, fin_sub, fin_add, neg_fin,
    fin_div_zero]
  rfl

/-- C07 fails: no parameter is rejected by `mean`, `var`, `support`, nor by `pdf`, `cdf` and `sf` at a negative `x`. -/
theorem validates_fails (k l : ℝ) {x : ℝ} (hx : x < 0) : mean (fin k) (fin l) = .ok (fin (k + l)) ∧
    var (fin k) (fin l) = .ok (fin (2 * (k + 2 * l))) ∧ support (fin k) (fin l) = .ok (0, pinf) ∧ pdf (fin x) (fin k) (fin l) = .ok 0 ∧
    cdf (fin x) (fin k) (fin l) = .ok 0 ∧ sf (fin x) (fin k) (fin l) = .ok 1 :=
  ⟨mean_eval k l, var_eval k l, rfl, pdf_neg _ _ hx, by simp [cdf, hx.le], by simp [sf, hx.le]⟩

/-- C12: with `lam = 0`, `cdf` and `sf` are those of `chi2`. -/
theorem eq_chi2 (hk : 0 < k) (x : ℝ) : cdf (fin x) (fin k) 0 = chi2.cdf (fin x) (fin k) ∧ sf (fin x) (fin k) 0 = chi2.sf (fin x) (fin k) := by
  have e : F k 0 x = chi2.F k x := by rw [F, zero_div, ncg.C_zero_l (half_pos hk), chi2.F]
  rw [zero_def, cdf_eval hk le_rfl, sf_eval hk le_rfl, chi2.cdf_eval hk, chi2.sf_eval hk, e]
  exact ⟨rfl, rfl⟩

/-- C37, C63 -/
theorem isMean (hk : 0 < k) (hl : 0 < l) : IsMean (E k) (pdf · (fin k) (fin l)) (mean (fin k) (fin l)) :=
  (hasMV hk hl.le).isMean E_finite (pdf_off hl) (mean_eval k l)
/-- C37, C63 -/
theorem isVar (hk : 0 < k) (hl : 0 < l) : IsVar (E k) (pdf · (fin k) (fin l)) (var (fin k) (fin l)) :=
  (hasMV hk hl.le).isVar E_finite (pdf_off hl) (var_eval k l)

/-- C03: the density is positive inside the support that `support` reports and zero outside. -/
theorem support_spec (hk : 0 < k) (hl : 0 < l) : support (fin k) (fin l) = .ok (0, pinf) ∧
    (∀ x : ℝ, x < 0 → pdf (fin x) (fin k) (fin l) = .ok 0) ∧ ∀ x : ℝ, 0 < x → ∃ v : ℝ, 0 < v ∧ pdf (fin x) (fin k) (fin l) = .ok (fin v) :=
  ⟨rfl, fun _ hx => pdf_neg _ _ hx, fun _ hx => ⟨_, f_pos hk hl.le hx, pdf_pos hl hx⟩⟩

/-- C48 -/
theorem atInfinities (hk : 0 < k) (hl : 0 < l) : AtInfinities (cdf · (fin k) (fin l)) (sf · (fin k) (fin l)) := by
  refine ⟨by simp [cdf], ?_, by simp [sf], ?_⟩
  · simp only [cdf, zero_def, pinf_le_fin, if_false, ofNat_def, Nat.cast_ofNat, fin_div _ two_ne, ok_bind, mp.sqrt, hl.le, if_true,
      mq.cmarcumq_pinf (half_pos hk) (Real.sqrt_pos.2 hl)]
  · simp only [sf, zero_def, pinf_le_fin, if_false, ofNat_def, Nat.cast_ofNat, fin_div _ two_ne, ok_bind, mp.sqrt, hl.le, if_true,
      mq.marcumq_pinf (Real.sqrt_pos.2 hl)]

/-- Non-vacuity: three degrees of freedom, noncentrality 4. -/
example : (∃ c : ℝ, cdf 1 3 4 = .ok (fin c) ∧ 0 < c) ∧ E 3 = ∅ ∧ mean 3 4 = .ok 7 ∧ var 3 4 = .ok 22 := by
  refine ⟨⟨_, cdf_eval (k := 3) (l := 4) (by norm_num) (by norm_num) 1, ?_⟩, ?_, ?_, ?_⟩
  · have := mq.F_strict (m := 3 / 2) (by norm_num) (√4) (by simp) (by simp) (Real.sqrt_pos.2 one_pos : (0:ℝ) < √1)
    rwa [mq.F_nonpos le_rfl, mq_eq (by norm_num) one_pos] at this
  · ext x; simp only [E, mem_setOf_eq, mem_empty_iff_false, iff_false]; norm_num
  · simp [mean, ofNat_def]; norm_num
  · simp [var, ofNat_def]; norm_num

end Mpsci.ncx2
