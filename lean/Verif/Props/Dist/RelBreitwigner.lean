import Verif.Lemmas.Dist.RelBreitwigner
import Verif.Lemmas.Search
import Verif.Spec.Moments

/-! Properties of `rel_breitwigner`. -/

namespace Mpsci.rel_breitwigner

open Classical Num Spec common Filter Topology Set MeasureTheory
open bwD (F f G h b mu)

variable {r s : ℝ} {findroot : (Num → M Num) → Num → Num → M Num}

theorem isDist (hr : 0 < r) (hs : 0 < s) : IsDist (fun x => F r (x / s)) (fun x => f r (x / s) / s) := (bwD.isDist hr).scale hs

/-- C01 -/
theorem complementary (hr : 0 < r) (hs : 0 < s) : Complementary (cdf · (fin r) (fin s)) (sf · (fin r) (fin s)) :=
  complementary_of (cdf_eval hr hs) (sf_eval hr hs)

/-- C02 -/
theorem isCdf (hr : 0 < r) (hs : 0 < s) : IsCdf (cdf · (fin r) (fin s)) := (isDist hr hs).isCdf (cdf_eval hr hs)

/-- C03 -/
theorem isDensity (hr : 0 < r) (hs : 0 < s) : IsDensity ∅ (Ici 0) (pdf · (fin r) (fin s)) (cdf · (fin r) (fin s)) :=
  (isDist hr hs).isDensity (fun x _ => pdf_eval hr hs x) (cdf_eval hr hs) (f_zero hs)

/-- C04, C42 -/
theorem isLogOf (hr : 0 < r) (hs : 0 < s) : IsLogOf ∅ (pdf · (fin r) (fin s)) (logpdf · (fin r) (fin s)) :=
  isLogOf_of (P := Ici 0) (g := fun x => f r (x / s) / s) (fun _ _ hx => f_pos hr hs hx) (fun x _ hx => f_zero hs x hx)
    (fun x _ => pdf_eval hr hs x) (fun _ _ hx => logpdf_in hr hs hx) (fun _ _ hx => logpdf_out hr hs hx)

theorem F_mem (hr : 0 < r) (hs : 0 < s) {x : ℝ} (hx : x ∈ Ioi (0:ℝ)) : 0 < F r (x / s) ∧ F r (x / s) < 1 :=
  ⟨bwD.F_pos hr (div_pos hx hs), bwD.F_lt_one hr _⟩
theorem F_surj (hr : 0 < r) (hs : 0 < s) {p : ℝ} (h0 : 0 < p) (h1 : p < 1) : ∃ x ∈ Ioi (0:ℝ), F r (x / s) = p := by
  obtain ⟨z, hz, e⟩ := bwD.F_surj hr h0 h1
  exact ⟨z * s, mul_pos hz hs, by rwa [mul_div_cancel_right₀ _ hs.ne']⟩
theorem F_unique (hr : 0 < r) (hs : 0 < s) {x : ℝ} (hx : x ∈ Ioi (0:ℝ)) (y : ℝ) (e : F r (y / s) = F r (x / s)) : y = x := by
  have := bwD.F_unique hr (div_pos hx hs) _ e
  rwa [div_left_inj' hs.ne'] at this

/-- C05: assuming that the secant method finds the root -/
theorem inverts_cdf (hf : SecantFinder findroot) (hr : 0 < r) (hs : 0 < s) : InvertsSearch (Ioi 0) (cdf · (fin r) (fin s))
    (fun fuel p => invcdf findroot fuel p (fin r) (fin s)) := by
  refine invertsSearch_of (F := fun x => F r (x / s)) (fun x _ => cdf_eval hr hs x) (fun x hx => F_mem hr hs hx)
    (fun p h0 h1 => F_surj hr hs h0 h1) fun x hx => ?_
  obtain ⟨h0, h1⟩ := F_mem hr hs hx
  obtain ⟨N, h⟩ := bracketRootAlways_right hf (func := fun x => cdf x (fin r) (fin s)) (g := fun x => F r (x / s)) (a := 0) (T := x)
    (cdf_eval hr hs) (cdf_pinf hr hs) h1.ne (F_unique hr hs hx) (pass_up (isDist hr hs).mono (bwD.F_lt_one hr _)) none
  refine ⟨N, fun fuel hN => ?_⟩
  simp only [invcdf, validate_ok hr hs, ok_bind, validateP_ok h0.le h1.le]
  exact h fuel hN

/-- C05: assuming that the secant method finds the root -/
theorem inverts_sf (hf : SecantFinder findroot) (hr : 0 < r) (hs : 0 < s) : InvertsSearch (Ioi 0) (sf · (fin r) (fin s))
    (fun fuel p => invsf findroot fuel p (fin r) (fin s)) := by
  have hm : ∀ x ∈ Ioi (0:ℝ), 0 < 1 - F r (x / s) ∧ 1 - F r (x / s) < 1 := fun x hx => by
    obtain ⟨h0, h1⟩ := F_mem hr hs hx
    exact ⟨by linarith, by linarith⟩
  refine invertsSearch_of (F := fun x => 1 - F r (x / s)) (fun x _ => sf_eval hr hs x) hm (fun p h0 h1 => ?_) fun x hx => ?_
  · obtain ⟨x, hx, e⟩ := F_surj hr hs (p := 1 - p) (by linarith) (by linarith)
    exact ⟨x, hx, by rw [e]; ring⟩
  obtain ⟨h0, h1⟩ := hm x hx
  obtain ⟨N, h⟩ := bracketRootAlways_right hf (func := fun x => sf x (fin r) (fin s)) (g := fun x => 1 - F r (x / s)) (a := 0) (T := x)
    (sf_eval hr hs) (sf_pinf hr hs) h0.ne' (fun y h => F_unique hr hs hx y (by linarith))
    (pass_down (fun a b h => sub_le_sub_left ((isDist hr hs).mono h) 1) (sub_pos.2 (bwD.F_lt_one hr _))) none
  refine ⟨N, fun fuel hN => ?_⟩
  simp only [invsf, validate_ok hr hs, ok_bind, validateP_ok h0.le h1.le]
  exact h fuel hN

/-- C06 -/
theorem rejects_p (fuel : ℕ) : RejectsBadP (invcdf findroot fuel · (fin r) (fin s)) ∧
    RejectsBadP (invsf findroot fuel · (fin r) (fin s)) := by
  constructor <;> intro p hp <;> simp [invcdf, invsf, validateP_bad hp]

/-- C07 -/
theorem validates (x : ℝ) :
    ValidatesExactly (0 < r ∧ 0 < s) (cdf (fin x) (fin r) (fin s)) ∧
    ValidatesExactly (0 < r ∧ 0 < s) (sf (fin x) (fin r) (fin s)) ∧
    ValidatesExactly (0 < r ∧ 0 < s) (pdf (fin x) (fin r) (fin s)) ∧
    ValidatesExactly (0 < r ∧ 0 < s) (logpdf (fin x) (fin r) (fin s)) := by
  refine ⟨⟨fun h => ⟨_, cdf_eval h.1 h.2 x⟩, fun h => ?_⟩, ⟨fun h => ⟨_, sf_eval h.1 h.2 x⟩, fun h => ?_⟩,
    ⟨fun h => ⟨_, pdf_eval h.1 h.2 x⟩, fun h => ?_⟩, ⟨fun h => logpdf_returns h.1 h.2 x, fun h => ?_⟩⟩ <;>
  simp [cdf, sf, pdf, logpdf, validate_bad h]

/-- C07 -/
theorem validates_moments : ValidatesExactly (0 < r ∧ 0 < s) (mean (fin r) (fin s)) ∧ ValidatesExactly (0 < r ∧ 0 < s) (var (fin r) (fin s)) ∧
    ValidatesExactly (0 < r ∧ 0 < s) (mode (fin r) (fin s)) := by
  refine ⟨⟨fun h => ⟨_, mean_eval h.1 h.2⟩, fun h => ?_⟩, ⟨fun h => ⟨_, var_eval h.1 h.2⟩, fun h => ?_⟩,
    ⟨fun h => ⟨_, mode_eval h.1 h.2⟩, fun h => ?_⟩⟩ <;>
  simp [mean, var, mode, validate_bad h]

/-- C08 -/
theorem scale (hr : 0 < r) : ScaleInvariant (cdf · (fin r) ·) ∧ ScaleInvariant (sf · (fin r) ·) ∧ ScaleDensity (pdf · (fin r) ·) :=
  ⟨scale_of_std fun x _ hs => cdf_eval hr hs x, scale_of_std (G := fun z => 1 - F r z) fun x _ hs => sf_eval hr hs x,
   scaleDensity_of_std fun x _ hs => pdf_eval hr hs x⟩

/-- C09 -/
theorem isMode (hr : 0 < r) (hs : 0 < s) : IsMode ∅ (pdf · (fin r) (fin s)) (mode (fin r) (fin s)) := by
  refine isMode_of (mode_eval hr hs) (fun x _ => pdf_eval hr hs x) (by simp) (fun y _ => ?_)
  rw [mul_div_cancel_right₀ _ hs.ne']
  refine div_le_div_of_nonneg_right ?_ hs.le
  rw [bwD.f_eq hr.le, h, sub_self]
  by_cases hy : y / s < 0
  · rw [bwD.f_neg hy]
    have := bwD.k_pos hr
    positivity
  · rw [bwD.f_eq (not_lt.1 hy), h]
    refine div_le_div_of_nonneg_left (bwD.k_pos hr).le (by positivity) ?_
    nlinarith [sq_nonneg ((y / s) ^ 2 - r ^ 2)]

/-- C37 -/
theorem isMean (hr : 0 < r) (hs : 0 < s) : IsMean ∅ (pdf · (fin r) (fin s)) (mean (fin r) (fin s)) :=
  ((bwD.hasMV hr).scale hs).isMean finite_empty (fun x _ => pdf_eval hr hs x) (mean_eval hr hs)

/-- C37 -/
theorem isVar (hr : 0 < r) (hs : 0 < s) : IsVar ∅ (pdf · (fin r) (fin s)) (var (fin r) (fin s)) :=
  ((bwD.hasMV hr).scale hs).isVar finite_empty (fun x _ => pdf_eval hr hs x) (var_eval hr hs)

/-- C50: the moments of order 0, 1 and 2 -/
theorem isMoment (hr : 0 < r) (hs : 0 < s) {n : ℕ} (hn : n ≤ 2) : IsMoment ∅ (pdf · (fin r) (fin s)) n (noncentralMoment n (fin r) (fin s)) := by
  have hm := (bwD.hasMV hr).scale hs
  have hv : validateMomentN (n:ℤ) = .ok n := by simp [validateMomentN]
  interval_cases n
  · refine ⟨finite_empty, _, 1, fun x _ => pdf_eval hr hs x, by simp only [noncentralMoment, hv, validate_ok hr hs, ok_bind, if_true]; rfl, ?_, ?_⟩
    · simpa using hm.int0
    · simpa using hm.one
  · refine ⟨finite_empty, _, s * mu r, fun x _ => pdf_eval hr hs x, ?_, ?_, ?_⟩
    · simp only [noncentralMoment, hv, validate_ok hr hs, ok_bind, one_ne_zero, if_false, if_true]; exact mean_eval hr hs
    · simpa using hm.int1
    · simpa using hm.mean
  · refine ⟨finite_empty, _, s ^ 2 * b r, fun x _ => pdf_eval hr hs x, moment2 hr hs, hm.int2, ?_⟩
    rw [hm.second]; ring

/-- C50: the higher moments are infinite, and that is what is returned. -/
theorem moment_inf (hr : 0 < r) (hs : 0 < s) {n : ℕ} (hn : 3 ≤ n) : noncentralMoment n (fin r) (fin s) = .ok pinf ∧
    (∀ x : ℝ, 0 ≤ x → ∃ v : ℝ, 0 ≤ v ∧ pdf (fin x) (fin r) (fin s) = .ok (fin v)) ∧
    ¬ Integrable (fun x => x ^ n * (f r (x / s) / s)) ∧ ∀ e, ¬ IsMoment ∅ (pdf · (fin r) (fin s)) n e := by
  have hv : validateMomentN (n:ℤ) = .ok n := by simp [validateMomentN]
  have hni : ¬ Integrable (fun x => x ^ n * (f r (x / s) / s)) := by
    intro hi
    have h1 := hi.comp_mul_right' hs.ne'
    refine bwD.not_integrable hr hn ((h1.const_mul (s / s ^ n)).congr (ae_of_all _ fun z => ?_))
    simp only [mul_div_cancel_right₀ z hs.ne']
    rw [mul_pow]
    field_simp
  refine ⟨?_, fun x hx => ⟨_, (f_pos hr hs (mem_Ici.2 hx)).le, pdf_eval hr hs x⟩, hni, ?_⟩
  · simp only [noncentralMoment, hv, validate_ok hr hs, ok_bind, show ¬ n = 0 by omega, show ¬ n = 1 by omega, show ¬ n = 2 by omega, if_false]
    rfl
  · rintro e ⟨-, g, m, hg, -, hi, -⟩
    refine hni (hi.congr (ae_of_all _ fun x => ?_))
    have := (hg x (by simp)).symm.trans (pdf_eval hr hs x)
    simp only [Num.fin.inj (Except.ok.inj this)]

/-- C30: a negative order is rejected. -/
theorem moment_rejects {n : ℤ} (hn : n < 0) (rho scale : Num) : noncentralMoment n rho scale = .error .valueError := by
  simp [noncentralMoment, validateMomentN, hn]

/-- C41 -/
theorem support_spec (hr : 0 < r) (hs : 0 < s) : support (fin r) (fin s) = .ok (fin 0, pinf) := by simp [support, validate_ok hr hs]

/-- C48 -/
theorem atInfinities (hr : 0 < r) (hs : 0 < s) : AtInfinities (cdf · (fin r) (fin s)) (sf · (fin r) (fin s)) :=
  ⟨by simp [cdf, validate_ok hr hs], cdf_pinf hr hs, by simp [sf, cdf, validate_ok hr hs], sf_pinf hr hs⟩

/-- Non-vacuity -/
example : (∃ findroot, SecantFinder findroot) ∧ (0:ℝ) < 1 ∧ (0:ℝ) < 2 := ⟨exists_secantFinder, one_pos, by norm_num⟩

end Mpsci.rel_breitwigner
