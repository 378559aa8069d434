import Verif.Lemmas.Dist.Argus
import Verif.Lemmas.SearchBisect
import Verif.Lemmas.Search

/-! Properties of `argus`. -/

namespace Mpsci.argus

open Classical Num Spec common Filter Topology Set argD

variable {c s : ℝ} {findroot : (Num → M Num) → Num → Num → M Num}

/-- C01 -/
theorem complementary (hc : 0 ≤ c) (hs : 0 < s) : Complementary (cdf · (fin c) (fin s)) (sf · (fin c) (fin s)) :=
  complementary_of (cdf_eval hc hs) (sf_eval hc hs)

/-- C02 -/
theorem isCdf (hc : 0 ≤ c) (hs : 0 < s) : IsCdf (cdf · (fin c) (fin s)) := ((isDist hc).scale hs).isCdf (cdf_eval hc hs)

/-- C03 -/
theorem isDensity (hc : 0 ≤ c) (hs : 0 < s) : IsDensity ∅ (Ioo 0 s) (pdf · (fin c) (fin s)) (cdf · (fin c) (fin s)) :=
  ((isDist hc).scale hs).isDensity (fun x _ => pdf_eval hc hs x) (cdf_eval hc hs) (f_zero hs)

/-- C04, C42 -/
theorem isLogOf (hc : 0 ≤ c) (hs : 0 < s) : IsLogOf ∅ (pdf · (fin c) (fin s)) (logpdf · (fin c) (fin s)) :=
  isLogOf_of (P := Ioo 0 s) (g := fun x => f c (x / s) / s) (fun _ _ hx => f_pos hc hs hx) (fun x _ hx => f_zero hs x hx)
    (fun x _ => pdf_eval hc hs x) (fun _ _ hx => logpdf_in hc hs hx) (fun _ _ hx => logpdf_out hc hs hx)

theorem div_mem (hs : 0 < s) {x : ℝ} (hx : x ∈ Icc 0 s) : x / s ∈ Icc (0:ℝ) 1 :=
  ⟨div_nonneg hx.1 hs.le, (div_le_one hs).2 hx.2⟩

theorem F_strictMonoOn_scale (hc : 0 ≤ c) (hs : 0 < s) : StrictMonoOn (fun x => F c (x / s)) (Icc 0 s) := fun _ ha _ hb hab =>
  F_strictMonoOn hc (div_mem hs ha) (div_mem hs hb) (div_lt_div_of_pos_right hab hs)

/-- C05 on the closed support, assuming that bisection finds the root -/
theorem invcdf_cdf (hr : BisectFinder findroot) (hc : 0 ≤ c) (hs : 0 < s) {x : ℝ} (hx : x ∈ Icc 0 s) :
    Reaches (invcdf findroot · (fin (F c (x / s))) (fin c) (fin s)) (fin x) := by
  obtain ⟨N, h⟩ := bracketBisect_mono hr (func := fun x => cdf x (fin c) (fin s)) (g := fun x => F c (x / s)) hs (fun t _ => cdf_eval hc hs t)
    ((isDist hc).scale hs).cont.continuousOn (F_strictMonoOn_scale hc hs) hx none
  refine ⟨N, fun fuel hN => ?_⟩
  simp only [invcdf, validate_ok hc hs, ok_bind, validateP_ok ((isDist hc).nonneg (x / s)) ((isDist hc).le_one (x / s))]
  exact h fuel hN

/-- C05 on the closed support, assuming that bisection finds the root -/
theorem invsf_sf (hr : BisectFinder findroot) (hc : 0 ≤ c) (hs : 0 < s) {x : ℝ} (hx : x ∈ Icc 0 s) :
    Reaches (invsf findroot · (fin (1 - F c (x / s))) (fin c) (fin s)) (fin x) := by
  obtain ⟨N, h⟩ := bracketBisect_anti hr (func := fun x => sf x (fin c) (fin s)) (g := fun x => 1 - F c (x / s)) hs (fun t _ => sf_eval hc hs t)
    (continuous_const.sub ((isDist hc).scale hs).cont).continuousOn
    (fun a ha b hb hab => sub_lt_sub_left (F_strictMonoOn_scale hc hs ha hb hab) 1) hx none
  refine ⟨N, fun fuel hN => ?_⟩
  have h0 := (isDist hc).nonneg (x / s)
  have h1 := (isDist hc).le_one (x / s)
  simp only [invsf, validate_ok hc hs, ok_bind, validateP_ok (sub_nonneg.2 h1) (sub_le_self 1 h0)]
  exact h fuel hN

theorem F_surj_scale (hc : 0 ≤ c) (hs : 0 < s) {p : ℝ} (h0 : 0 < p) (h1 : p < 1) : ∃ x ∈ Ioo 0 s, F c (x / s) = p := by
  obtain ⟨z, hz, e⟩ := F_surj hc h0 h1
  refine ⟨z * s, (mem_Ioo_div hs).1 ?_, ?_⟩ <;> rwa [mul_div_cancel_right₀ _ hs.ne']

/-- C05: assuming that bisection finds the root -/
theorem inverts_cdf (hr : BisectFinder findroot) (hc : 0 ≤ c) (hs : 0 < s) : InvertsSearch (Ioo 0 s) (cdf · (fin c) (fin s))
    (fun fuel p => invcdf findroot fuel p (fin c) (fin s)) :=
  invertsSearch_of (F := fun x => F c (x / s)) (fun x _ => cdf_eval hc hs x) (fun _ hx => F_mem hc ((mem_Ioo_div hs).2 hx))
    (fun _ h0 h1 => F_surj_scale hc hs h0 h1) fun _ hx => invcdf_cdf hr hc hs (Ioo_subset_Icc_self hx)

/-- C05: assuming that bisection finds the root -/
theorem inverts_sf (hr : BisectFinder findroot) (hc : 0 ≤ c) (hs : 0 < s) : InvertsSearch (Ioo 0 s) (sf · (fin c) (fin s))
    (fun fuel p => invsf findroot fuel p (fin c) (fin s)) :=
  invertsSearch_of (F := fun x => 1 - F c (x / s)) (fun x _ => sf_eval hc hs x)
    (fun _ hx => by
      obtain ⟨h0, h1⟩ := F_mem hc ((mem_Ioo_div hs).2 hx)
      exact ⟨sub_pos.2 h1, sub_lt_self 1 h0⟩)
    (fun p h0 h1 => by
      obtain ⟨x, hx, e⟩ := F_surj_scale hc hs (p := 1 - p) (by linarith) (by linarith)
      exact ⟨x, hx, by rw [e]; ring⟩) fun _ hx => invsf_sf hr hc hs (Ioo_subset_Icc_self hx)

/-- C06 -/
theorem rejects_p (fuel : ℕ) (hc : 0 ≤ c) (hs : 0 < s) : RejectsBadP (invcdf findroot fuel · (fin c) (fin s)) ∧
    RejectsBadP (invsf findroot fuel · (fin c) (fin s)) := by
  constructor <;> intro p hp <;> simp [invcdf, invsf, validate_ok hc hs, validateP_bad hp]

/-- C07 -/
theorem validates (x : ℝ) :
    ValidatesExactly (0 ≤ c ∧ 0 < s) (cdf (fin x) (fin c) (fin s)) ∧
    ValidatesExactly (0 ≤ c ∧ 0 < s) (sf (fin x) (fin c) (fin s)) ∧
    ValidatesExactly (0 ≤ c ∧ 0 < s) (pdf (fin x) (fin c) (fin s)) ∧
    ValidatesExactly (0 ≤ c ∧ 0 < s) (logpdf (fin x) (fin c) (fin s)) := by
  refine ⟨⟨fun h => ⟨_, cdf_eval h.1 h.2 x⟩, fun h => ?_⟩, ⟨fun h => ⟨_, sf_eval h.1 h.2 x⟩, fun h => ?_⟩,
    ⟨fun h => ⟨_, pdf_eval h.1 h.2 x⟩, fun h => ?_⟩, ⟨fun h => logpdf_returns h.1 h.2 x, fun h => ?_⟩⟩ <;>
  simp [cdf, sf, pdf, logpdf, validate_bad h]

/-- C07 -/
theorem validates_moments : ValidatesExactly (0 ≤ c ∧ 0 < s) (mean (fin c) (fin s)) ∧ ValidatesExactly (0 ≤ c ∧ 0 < s) (var (fin c) (fin s)) ∧
    ValidatesExactly (0 ≤ c ∧ 0 < s) (mode (fin c) (fin s)) := by
  refine ⟨⟨fun h => ⟨_, mean_eval h.1 h.2⟩, fun h => ?_⟩, ⟨fun h => ⟨_, var_eval h.1 h.2⟩, fun h => ?_⟩,
    ⟨fun h => ⟨_, mode_eval h.1 h.2⟩, fun h => ?_⟩⟩ <;>
  simp [mean, var, mode, validate_bad h]

/-- C08 -/
theorem scale (hc : 0 ≤ c) : ScaleInvariant (cdf · (fin c) ·) ∧ ScaleInvariant (sf · (fin c) ·) ∧ ScaleDensity (pdf · (fin c) ·) :=
  ⟨scale_of_std fun x _ hs => cdf_eval hc hs x, scale_of_std (G := fun z => 1 - F c z) fun x _ hs => sf_eval hc hs x,
   scaleDensity_of_std fun x _ hs => pdf_eval hc hs x⟩

/-- C09 -/
theorem isMode (hc : 0 ≤ c) (hs : 0 < s) : IsMode ∅ (pdf · (fin c) (fin s)) (mode (fin c) (fin s)) := by
  refine isMode_of (mode_eval hc hs) (fun x _ => pdf_eval hc hs x) (by simp) (fun y _ => ?_)
  rw [mul_div_cancel_left₀ _ hs.ne']
  exact div_le_div_of_nonneg_right (f_le hc _) hs.le

/-- C37 -/
theorem isMean (hc : 0 ≤ c) (hs : 0 < s) : IsMean ∅ (pdf · (fin c) (fin s)) (mean (fin c) (fin s)) :=
  ((hasMV hc).scale hs).isMean finite_empty (fun x _ => pdf_eval hc hs x) (mean_eval hc hs)

/-- C37 -/
theorem isVar (hc : 0 ≤ c) (hs : 0 < s) : IsVar ∅ (pdf · (fin c) (fin s)) (var (fin c) (fin s)) :=
  ((hasMV hc).scale hs).isVar finite_empty (fun x _ => pdf_eval hc hs x) (var_eval hc hs)

/-- C41 -/
theorem support_spec (hc : 0 ≤ c) (hs : 0 < s) : support (fin c) (fin s) = .ok (fin 0, fin s) := by simp [support, validate_ok hc hs]

/-- C41: the quantile functions reach the ends of the support at `p = 0` and `p = 1`. -/
theorem ends (hr : BisectFinder findroot) (hc : 0 ≤ c) (hs : 0 < s) :
    Reaches (invcdf findroot · (fin 0) (fin c) (fin s)) (fin 0) ∧ Reaches (invcdf findroot · (fin 1) (fin c) (fin s)) (fin s) ∧
    Reaches (invsf findroot · (fin 1) (fin c) (fin s)) (fin 0) ∧ Reaches (invsf findroot · (fin 0) (fin c) (fin s)) (fin s) := by
  have h0 : F c (0 / s) = 0 := by rw [zero_div, F_zero]
  have h1 : F c (s / s) = 1 := by rw [div_self hs.ne', F_one]
  have a1 := invcdf_cdf hr hc hs (left_mem_Icc.2 hs.le)
  have a2 := invcdf_cdf hr hc hs (right_mem_Icc.2 hs.le)
  have a3 := invsf_sf hr hc hs (left_mem_Icc.2 hs.le)
  have a4 := invsf_sf hr hc hs (right_mem_Icc.2 hs.le)
  rw [h0] at a1
  rw [h1] at a2
  rw [h0, sub_zero] at a3
  rw [h1, sub_self] at a4
  exact ⟨a1, a2, a3, a4⟩

/-- C48 -/
theorem atInfinities (hc : 0 ≤ c) (hs : 0 < s) : AtInfinities (cdf · (fin c) (fin s)) (sf · (fin c) (fin s)) :=
  ⟨by simp [cdf, validate_ok hc hs], by simp [cdf, validate_ok hc hs], by simp [sf, validate_ok hc hs], by simp [sf, validate_ok hc hs]⟩

/-- Non-vacuity -/
example : (∃ findroot, BisectFinder findroot) ∧ (0:ℝ) ≤ 0 ∧ (0:ℝ) ≤ 1 ∧ (0:ℝ) < 2 ∧ (1:ℝ) ∈ Icc 0 (2:ℝ) :=
  ⟨exists_bisectFinder, le_rfl, zero_le_one, by norm_num, by norm_num⟩

end Mpsci.argus
