import Verif.Lemmas.Dist.StudentT
import Verif.Props.Dist.F
import Verif.Props.Dist.Cauchy
import Mathlib.Analysis.SpecialFunctions.Integrals.Basic

/-! Properties of `studentt`. -/

namespace Mpsci.studentt

open Classical Num Spec common Filter Topology Set

variable {v : ℝ} {findroot : (Num → M Num) → Num → Num → M Num}

/-- C01 -/
theorem complementary (hv : 0 < v) : Complementary (cdf · (fin v)) (sf · (fin v)) := complementary_of (cdf_eval hv) (sf_eval hv)

/-- C02 -/
theorem isCdf (hv : 0 < v) : IsCdf (cdf · (fin v)) := (tD.isDist hv).isCdf (cdf_eval hv)

/-- C03 -/
theorem isDensity (hv : 0 < v) : IsDensity ∅ univ (pdf · (fin v)) (cdf · (fin v)) :=
  (tD.isDist hv).isDensity (fun x _ => pdf_eval hv x) (cdf_eval hv) (fun x hx => absurd (mem_univ x) hx)

/-- C04, C42 -/
theorem isLogOf (hv : 0 < v) : IsLogOf ∅ (pdf · (fin v)) (logpdf · (fin v)) :=
  isLogOf_pos (fun x _ => tD.f_pos hv x) (fun x _ => pdf_eval hv x) (fun x _ => logpdf_eval hv x)

/-- C05 for the lower half: assuming that the bracketing root finder works, `invcdf` inverts `cdf` both ways for `p ≤ 1/2`. -/
theorem inverts_cdf_lower_partial (hr : RootFinder findroot) (hv : 0 < v) :
    (∀ p : ℝ, 0 < p → p ≤ 1 / 2 → ∃ x : ℝ, x ≤ 0 ∧ Reaches (invcdf findroot · (fin p) (fin v)) (fin x) ∧ cdf (fin x) (fin v) = .ok (fin p)) ∧
    (∀ x : ℝ, x ≤ 0 → ∃ p : ℝ, 0 < p ∧ p ≤ 1 / 2 ∧ cdf (fin x) (fin v) = .ok (fin p) ∧ Reaches (invcdf findroot · (fin p) (fin v)) (fin x)) := by
  have hle : ∀ x, tD.F v x ≤ 1 / 2 → x ≤ 0 := fun x h => by
    rw [← tD.F_zero (v := v)] at h; exact (tD.F_strictMono hv).le_iff_le.1 h
  refine ⟨fun p h0 h1 => ?_, fun x hx => ?_⟩
  · have e := tD.F_Q hv p h0 (by linarith)
    have hx := hle (tD.Q v p) (by rw [e]; exact h1)
    refine ⟨tD.Q v p, hx, ?_, by rw [cdf_eval hv, e]⟩
    have := invcdf_lower hr hv hx
    rwa [e] at this
  · refine ⟨tD.F v x, (F_mem hv x).1, ?_, cdf_eval hv x, invcdf_lower hr hv hx⟩
    rw [← tD.F_zero (v := v)]; exact (tD.F_strictMono hv).le_iff_le.2 hx

/-- C05 for the upper half: `invcdf` returns the quantile or its negative (missing: that it returns the quantile, which is
false, see `inverts_cdf_fails`). -/
theorem inverts_cdf_upper_partial (hr : RootFinder findroot) (hv : 0 < v) (p : ℝ) (h0 : 1 / 2 < p) (h1 : p < 1) :
    ∃ x : ℝ, 0 < x ∧ cdf (fin x) (fin v) = .ok (fin p) ∧
      (Reaches (invcdf findroot · (fin p) (fin v)) (fin x) ∨ Reaches (invcdf findroot · (fin p) (fin v)) (fin (-x))) := by
  have e := tD.F_Q hv p (by linarith) h1
  have hx : 0 < tD.Q v p := by
    refine (tD.F_strictMono hv).lt_iff_lt.1 ?_
    rw [e, tD.F_zero]; exact h0
  refine ⟨tD.Q v p, hx, by rw [cdf_eval hv, e], ?_⟩
  have := invcdf_upper hr hv hx
  rwa [e] at this

/-- C05 fails: for every number of degrees of freedom the quantile at the probability of `1/2` comes out as `-1/2`: when the
bracket search hits the solution, the sign is not put back. (In exact arithmetic.) -/
theorem inverts_cdf_fails (hv : 0 < v) : ∃ p : ℝ, cdf (fin (1 / 2)) (fin v) = .ok (fin p) ∧
    Reaches (invcdf findroot · (fin p) (fin v)) (fin (-(1 / 2))) ∧ cdf (fin (-(1 / 2))) (fin v) ≠ .ok (fin p) := by
  refine ⟨_, cdf_eval hv _, ⟨1, fun fuel hn => ?_⟩, ?_⟩
  · obtain ⟨n, rfl⟩ : ∃ n, fuel = n + 1 := ⟨fuel - 1, by omega⟩
    exact invcdf_half hv n
  · rw [cdf_eval hv]
    intro h
    have := (tD.F_strictMono hv).injective (Num.fin.inj (Except.ok.inj h))
    norm_num at this

/-- C05 fails for the same reason for `invsf`. -/
theorem inverts_sf_fails (hv : 0 < v) : ∃ p : ℝ, sf (fin (-(1 / 2))) (fin v) = .ok (fin p) ∧
    Reaches (invsf findroot · (fin p) (fin v)) (fin (1 / 2)) ∧ sf (fin (1 / 2)) (fin v) ≠ .ok (fin p) := by
  obtain ⟨h0, h1⟩ := F_mem hv (1 / 2)
  refine ⟨tD.F v (1 / 2), by rw [sf_eval hv, tD.F_neg, sub_sub_cancel], ⟨1, fun fuel hn => ?_⟩, ?_⟩
  · obtain ⟨n, rfl⟩ : ∃ n, fuel = n + 1 := ⟨fuel - 1, by omega⟩
    simp only [invsf, validate_ok hv, validateP_ok h0.le h1.le, ok_bind, invcdf_half hv n, neg_fin, neg_neg, pure_eq_ok]
  · rw [sf_eval hv, ← tD.F_neg]
    intro h
    have := (tD.F_strictMono hv).injective (Num.fin.inj (Except.ok.inj h))
    norm_num at this

/-- C05 for the upper tail: `invsf` inverts `sf` both ways for `p ≤ 1/2`. -/
theorem inverts_sf_partial (hr : RootFinder findroot) (hv : 0 < v) :
    (∀ p : ℝ, 0 < p → p ≤ 1 / 2 → ∃ x : ℝ, 0 ≤ x ∧ Reaches (invsf findroot · (fin p) (fin v)) (fin x) ∧ sf (fin x) (fin v) = .ok (fin p)) ∧
    (∀ x : ℝ, 0 ≤ x → ∃ p : ℝ, 0 < p ∧ p ≤ 1 / 2 ∧ sf (fin x) (fin v) = .ok (fin p) ∧ Reaches (invsf findroot · (fin p) (fin v)) (fin x)) := by
  obtain ⟨a, b⟩ := inverts_cdf_lower_partial hr hv
  have hneg : ∀ p x : ℝ, 0 < p → p ≤ 1 / 2 → Reaches (invcdf findroot · (fin p) (fin v)) (fin x) →
      Reaches (invsf findroot · (fin p) (fin v)) (fin (-x)) := by
    rintro p x h0 h1 ⟨N, h⟩
    exact ⟨N, fun fuel hn => by simp only [invsf, validate_ok hv, validateP_ok h0.le (by linarith), ok_bind, h fuel hn, neg_fin, pure_eq_ok]⟩
  refine ⟨fun p h0 h1 => ?_, fun x hx => ?_⟩
  · obtain ⟨x, hx, h2, h3⟩ := a p h0 h1
    rw [cdf_eval hv] at h3
    refine ⟨-x, by linarith, hneg p x h0 h1 h2, ?_⟩
    rw [sf_eval hv, tD.F_neg, sub_sub_cancel]; exact h3
  · obtain ⟨p, h0, h1, h2, h3⟩ := b (-x) (by linarith)
    have := hneg p _ h0 h1 h3
    rw [neg_neg] at this
    refine ⟨p, h0, h1, ?_, this⟩
    rw [cdf_eval hv, tD.F_neg] at h2
    rw [sf_eval hv]; exact h2

/-- C06 -/
theorem rejects_p (hv : 0 < v) (fuel : ℕ) : RejectsBadP (invcdf findroot fuel · (fin v)) ∧ RejectsBadP (invsf findroot fuel · (fin v)) := by
  constructor <;> intro p hp <;> simp [invcdf, invsf, validateP_bad hp, validate_ok hv]

/-- C07 -/
theorem validates (x : ℝ) :
    ValidatesExactly (0 < v) (cdf (fin x) (fin v)) ∧ ValidatesExactly (0 < v) (sf (fin x) (fin v)) ∧
    ValidatesExactly (0 < v) (pdf (fin x) (fin v)) ∧ ValidatesExactly (0 < v) (logpdf (fin x) (fin v)) := by
  refine ⟨⟨fun h => ⟨_, cdf_eval h x⟩, fun h => ?_⟩, ⟨fun h => ⟨_, sf_eval h x⟩, fun h => ?_⟩,
    ⟨fun h => ⟨_, pdf_eval h x⟩, fun h => ?_⟩, ⟨fun h => ⟨_, logpdf_eval h x⟩, fun h => ?_⟩⟩ <;>
  simp [cdf, sf, pdf, logpdf, validate_bad h]

/-- C07 -/
theorem validates_moments : ValidatesExactly (0 < v) (mean (fin v)) ∧ ValidatesExactly (0 < v) (mode (fin v)) ∧
    ValidatesExactly (0 < v) (entropy (fin v)) := by
  refine ⟨⟨fun h => ⟨0, ?_⟩, fun h => ?_⟩, ⟨fun h => ⟨0, ?_⟩, fun h => ?_⟩, ⟨fun h => ⟨_, entropy_eval h⟩, fun h => ?_⟩⟩ <;>
  simp [mean, mode, entropy, validate_bad, validate_ok, h]

/-- C07: the quantile functions and `support` reject bad parameters. -/
theorem rejects_df (h : ¬ 0 < v) (fuel : ℕ) (p : Num) : invcdf findroot fuel p (fin v) = .error .valueError ∧
    invsf findroot fuel p (fin v) = .error .valueError ∧ support (fin v) = .error .valueError := by
  simp [invcdf, invsf, support, validate_bad h]

/-- C09 -/
theorem isMode (hv : 0 < v) : IsMode ∅ (pdf · (fin v)) (mode (fin v)) :=
  isMode_of (m := 0) (by simp [mode, validate_ok hv]) (fun x _ => pdf_eval hv x) (by simp) (fun y _ => tD.f_le hv y)

/-- C11: the distribution is its own mirror image. -/
theorem symmetric (hv : 0 < v) (x : ℝ) : pdf (fin (-x)) (fin v) = pdf (fin x) (fin v) ∧ cdf (fin (-x)) (fin v) = sf (fin x) (fin v) := by
  rw [pdf_eval hv, pdf_eval hv, cdf_eval hv, sf_eval hv, tD.f_neg, tD.F_neg]; exact ⟨rfl, rfl⟩

/-- C12: the square of a `t` variate has an `F` distribution: for `x ≥ 0`, the probability of `|T| ≤ x` is `f.cdf(x**2, 1, df)`. -/
theorem sq_f (hv : 0 < v) {x : ℝ} (hx : 0 ≤ x) :
    ∃ p q : ℝ, cdf (fin x) (fin v) = .ok (fin p) ∧ cdf (fin (-x)) (fin v) = .ok (fin q) ∧
      fdist.cdf (fin (x ^ 2)) (fin 1) (fin v) = .ok (fin (p - q)) := by
  refine ⟨_, _, cdf_eval hv x, cdf_eval hv (-x), ?_⟩
  rw [tD.F_neg, tD.F_eq hv hx, fdist.cdf_eval one_pos hv, fdist.F, div_one]
  congr 2; ring

/-- C12: with one degree of freedom it is the Cauchy distribution. -/
theorem eq_cauchy (x : ℝ) : pdf (fin x) (fin 1) = cauchy.pdf (fin x) (fin 0) (fin 1) ∧
    cdf (fin x) (fin 1) = cauchy.cdf (fin x) (fin 0) (fin 1) := by
  have hp := Real.pi_pos
  have hc : tD.C 1 = 1 / Real.pi := by
    rw [tD.C_eq one_pos, mul_one, Real.Gamma_one_half_eq, show ((1:ℝ) + 1) / 2 = 1 by norm_num, Real.Gamma_one, div_div,
      Real.mul_self_sqrt hp.le]
  have hw : ∀ t, tD.w 1 t = (1 + t ^ 2)⁻¹ := fun t => by
    rw [tD.w, div_one, show -(((1:ℝ) + 1) / 2) = -1 by norm_num, Real.rpow_neg_one]
  have e : (x - 0) / 1 = x := by ring
  rw [pdf_eval one_pos, cdf_eval one_pos, cauchy.pdf_eval one_pos, cauchy.cdf_eval one_pos, e, div_one, tD.f, hc, hw, cauchy.f, tD.F, hc,
    cauchy.F]
  simp only [hw, integral_inv_one_add_sq, Real.arctan_zero, sub_zero]
  refine ⟨?_, ?_⟩
  · congr 2; field_simp
  · congr 2; ring

/-- C37 -/
theorem isMean (hv : 1 < v) : IsMean ∅ (pdf · (fin v)) (mean (fin v)) :=
  (tD.hasM hv).isMean finite_empty (fun x _ => pdf_eval (by linarith) x) (by simp [mean, validate_ok (show 0 < v by linarith)])

/-- C37 fails: up to one degree of freedom there is no mean, but 0 is returned. -/
theorem mean_fails (hv : 0 < v) (h1 : v ≤ 1) : (¬ ∃ r, IsMean ∅ (pdf · (fin v)) r) ∧ mean (fin v) = .ok (fin 0) :=
  ⟨not_isMean_of (fun x _ => pdf_eval hv x) (tD.isDist hv) (tD.F_Q hv) (tD.not_int_Q hv h1), by simp [mean, validate_ok hv]⟩

/-- C37 -/
theorem isEntropy (hv : 0 < v) : IsEntropy ∅ (pdf · (fin v)) (entropy (fin v)) :=
  (tD.hasEnt hv).isEntropy finite_empty (fun x _ => pdf_eval hv x) (entropy_eval hv)

/-- C41 -/
theorem endPoints (hv : 0 < v) (fuel : ℕ) :
    EndPoints (invcdf findroot fuel · (fin v)) ninf pinf ∧ EndPoints (invsf findroot fuel · (fin v)) pinf ninf ∧
    support (fin v) = .ok (ninf, pinf) := by
  have h0 : validateP (fin 0) = .ok (fin 0) := validateP_ok le_rfl zero_le_one
  have h1 : validateP (fin 1) = .ok (fin 1) := validateP_ok zero_le_one le_rfl
  refine ⟨⟨?_, ?_⟩, ⟨?_, ?_⟩, ?_⟩ <;> simp [invcdf, invsf, support, validate_ok hv, h0, h1]

/-- C48 -/
theorem atInfinities (hv : 0 < v) : AtInfinities (cdf · (fin v)) (sf · (fin v)) :=
  ⟨cdf_ninf hv, cdf_pinf hv, by simp [sf, validate_ok hv], by simp [sf, validate_ok hv]⟩

/-- Non-vacuity -/
example : (∃ findroot, RootFinder findroot) ∧ (0:ℝ) < 3 ∧ (1:ℝ) < 3 := ⟨exists_rootFinder, by norm_num, by norm_num⟩

end Mpsci.studentt
