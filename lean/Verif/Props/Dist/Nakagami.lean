import Verif.Lemmas.Dist.Nakagami

/-! Properties of `nakagami`. -/

namespace Mpsci.nakagami

open Classical Num Spec common Filter Topology Set

variable {nu loc s : ℝ} {findroot : (Num → M Num) → Num → Num → M Num}

/-- C01 -/
theorem complementary (hn : 0 < nu) (hs : 0 < s) :
    Complementary (cdf · (fin nu) (fin loc) (fin s)) (sf · (fin nu) (fin loc) (fin s)) := complementary_of (cdf_eval hn hs) (sf_eval hn hs)

/-- C02 -/
theorem isCdf (hn : 0 < nu) (hs : 0 < s) : IsCdf (cdf · (fin nu) (fin loc) (fin s)) := (isDist hn hs).isCdf (cdf_eval hn hs)

/-- C03 -/
theorem isDensity (hn : 0 < nu) (hs : 0 < s) :
    IsDensity ∅ (Ioi loc) (pdf · (fin nu) (fin loc) (fin s)) (cdf · (fin nu) (fin loc) (fin s)) :=
  (isDist hn hs).isDensity (fun x _ => pdf_eval hn hs x) (cdf_eval hn hs) (f_zero hn hs)

/-- C04, C42 -/
theorem isLogOf (hn : 0 < nu) (hs : 0 < s) : IsLogOf ∅ (pdf · (fin nu) (fin loc) (fin s)) (logpdf · (fin nu) (fin loc) (fin s)) :=
  isLogOf_of (P := Ioi loc) (g := fun x => f nu ((x - loc) / s) / s) (fun _ _ hx => f_pos hn hs hx) (fun x _ hx => f_zero hn hs x hx)
    (fun x _ => pdf_eval hn hs x) (fun x _ hx => logpdf_pos hn hs hx) (fun x _ hx => logpdf_low hn hs (not_lt.1 hx))

/-- C05: assuming that the secant method finds the root (the starting points are in `[0, ∞)` whatever `loc` is) -/
theorem inverts_cdf (hr : SecantFinder findroot) (hn : 0 < nu) (hs : 0 < s) : InvertsSearch (Ioi loc) (cdf · (fin nu) (fin loc) (fin s))
    (fun fuel p => invcdf findroot fuel p (fin nu) (fin loc) (fin s)) := by
  refine invertsSearch_of (F := fun x => F nu ((x - loc) / s)) (fun x _ => cdf_eval hn hs x) (fun x hx => F_mem hn hs hx)
    (fun p h0 h1 => ⟨_, lt_add_of_pos_right _ (mul_pos hs (nakD.Q_pos hn p)), F_Q hn hs p h0 h1⟩) fun x hx => ?_
  obtain ⟨h0, h1⟩ := F_mem hn hs hx
  obtain ⟨N, h⟩ := bracketRootAlways_right hr (func := fun x => cdf x (fin nu) (fin loc) (fin s)) (g := fun x => F nu ((x - loc) / s))
    (a := 0) (T := x) (cdf_eval hn hs) (cdf_pinf hn hs) h1.ne (F_unique hn hs hx)
    (pass_up (isDist hn hs).mono (F_lt_one hn _)) none
  refine ⟨N, fun fuel hN => ?_⟩
  simp only [invcdf, validate_ok hn hs, ok_bind, validateP_ok h0.le h1.le]
  exact h fuel hN

/-- C05: assuming that the secant method finds the root -/
theorem inverts_sf (hr : SecantFinder findroot) (hn : 0 < nu) (hs : 0 < s) : InvertsSearch (Ioi loc) (sf · (fin nu) (fin loc) (fin s))
    (fun fuel p => invsf findroot fuel p (fin nu) (fin loc) (fin s)) := by
  have hm : ∀ x ∈ Ioi loc, 0 < 1 - F nu ((x - loc) / s) ∧ 1 - F nu ((x - loc) / s) < 1 := fun x hx => by
    obtain ⟨h0, h1⟩ := F_mem hn hs hx
    exact ⟨by linarith, by linarith⟩
  refine invertsSearch_of (F := fun x => 1 - F nu ((x - loc) / s)) (fun x _ => sf_eval hn hs x) hm
    (fun p h0 h1 => ⟨_, lt_add_of_pos_right _ (mul_pos hs (nakD.Q_pos hn (1 - p))), by
      have := F_Q (loc := loc) hn hs (1 - p) (by linarith) (by linarith)
      rw [Q] at this
      rw [this]; ring⟩) fun x hx => ?_
  obtain ⟨h0, h1⟩ := hm x hx
  obtain ⟨N, h⟩ := bracketRootAlways_right hr (func := fun x => sf x (fin nu) (fin loc) (fin s)) (g := fun x => 1 - F nu ((x - loc) / s))
    (a := 0) (T := x) (sf_eval hn hs) (sf_pinf hn hs) h0.ne' (fun y h => F_unique hn hs hx y (by linarith))
    (pass_down (fun a b h => sub_le_sub_left ((isDist hn hs).mono h) 1) (by have := F_lt_one hn ((0 - loc) / s); linarith)) none
  refine ⟨N, fun fuel hN => ?_⟩
  simp only [invsf, validate_ok hn hs, ok_bind, validateP_ok h0.le h1.le]
  exact h fuel hN

/-- C06 -/
theorem rejects_p (fuel : ℕ) : RejectsBadP (invcdf findroot fuel · (fin nu) (fin loc) (fin s)) ∧
    RejectsBadP (invsf findroot fuel · (fin nu) (fin loc) (fin s)) := by
  constructor <;> intro p hp <;> simp [invcdf, invsf, validateP_bad hp]

/-- C07 -/
theorem validates (x : ℝ) :
    ValidatesExactly (0 < nu ∧ 0 < s) (cdf (fin x) (fin nu) (fin loc) (fin s)) ∧
    ValidatesExactly (0 < nu ∧ 0 < s) (sf (fin x) (fin nu) (fin loc) (fin s)) ∧
    ValidatesExactly (0 < nu ∧ 0 < s) (pdf (fin x) (fin nu) (fin loc) (fin s)) ∧
    ValidatesExactly (0 < nu ∧ 0 < s) (logpdf (fin x) (fin nu) (fin loc) (fin s)) := by
  refine ⟨⟨fun h => ⟨_, cdf_eval h.1 h.2 x⟩, fun h => ?_⟩, ⟨fun h => ⟨_, sf_eval h.1 h.2 x⟩, fun h => ?_⟩,
    ⟨fun h => pdf_returns h.1 h.2 x, fun h => ?_⟩, ⟨fun h => logpdf_returns h.1 h.2 x, fun h => ?_⟩⟩ <;>
  simp [cdf, sf, pdf, logpdf, validate_bad h]

/-- C07 -/
theorem validates_moments : ValidatesExactly (0 < nu ∧ 0 < s) (mean (fin nu) (fin loc) (fin s)) ∧
    ValidatesExactly (0 < nu ∧ 0 < s) (var (fin nu) (fin loc) (fin s)) := by
  refine ⟨⟨fun h => ⟨_, mean_eval h.1 h.2⟩, fun h => ?_⟩, ⟨fun h => ⟨_, var_eval h.1 h.2⟩, fun h => ?_⟩⟩ <;>
  simp [mean, var, validate_bad h]

/-- C08 -/
theorem locScale (hn : 0 < nu) : LocScaleInvariant (fun x loc s => cdf x (fin nu) loc s) ∧
    LocScaleInvariant (fun x loc s => sf x (fin nu) loc s) ∧ LocScaleDensity (fun x loc s => pdf x (fin nu) loc s) :=
  ⟨locScale_of_std fun x _ _ hs => cdf_eval hn hs x,
   locScale_of_std (G := fun z => 1 - F nu z) fun x _ _ hs => sf_eval hn hs x,
   locScaleDensity_of_std fun x _ _ hs => pdf_eval hn hs x⟩

/-- C09 -/
theorem isMode (hn : 1 / 2 < nu) (hs : 0 < s) :
    IsMode ∅ (pdf · (fin nu) (fin loc) (fin s)) (mode (fin nu) (fin loc) (fin s)) := by
  have h0 : 0 < nu := by linarith
  refine isMode_of (mode_eval hn.le hs) (fun x _ => pdf_eval h0 hs x) (by simp) (fun y _ => ?_)
  rw [add_sub_cancel_left, mul_div_cancel_left₀ _ hs.ne']
  exact div_le_div_of_nonneg_right (nakD.f_le hn h0 _) hs.le

/-- C09 fails for `nu = 1/2`: `mode` is `loc`, where `pdf` is 0. -/
theorem mode_half_fails (hs : 0 < s) : mode (fin (1 / 2)) (fin loc) (fin s) = .ok (fin loc) ∧
    pdf (fin loc) (fin (1 / 2)) (fin loc) (fin s) = .ok (fin 0) ∧
    ∀ x : ℝ, loc < x → ∃ y : ℝ, pdf (fin x) (fin (1 / 2)) (fin loc) (fin s) = .ok (fin y) ∧ 0 < y := by
  refine ⟨by rw [mode_eval le_rfl hs]; simp, ?_, fun x hx => ⟨_, pdf_eval one_half_pos hs x, f_pos one_half_pos hs hx⟩⟩
  rw [pdf_eval one_half_pos hs loc, f_zero one_half_pos hs loc (by simp)]

/-- C09 fails for `nu < 1/2`, where `mode` returns a complex number; the density decreases from `loc`. -/
theorem mode_complex_fails (h0 : 0 < nu) (hn : nu < 1 / 2) (hs : 0 < s) : mode (fin nu) (fin loc) (fin s) = .error .complexResult ∧
    ∀ x y : ℝ, loc < x → x < y → ∃ a b : ℝ, pdf (fin x) (fin nu) (fin loc) (fin s) = .ok (fin a) ∧
      pdf (fin y) (fin nu) (fin loc) (fin s) = .ok (fin b) ∧ b < a :=
  ⟨mode_complex h0 hn hs, fun x y hx hxy => ⟨_, _, pdf_eval h0 hs x, pdf_eval h0 hs y, div_lt_div_of_pos_right
    (nakD.f_anti h0 hn.le h0 ((affine_gt_zero hs).2 hx) (div_lt_div_of_pos_right (by linarith) hs)) hs⟩⟩

/-- C37 -/
theorem isMean (hn : 0 < nu) (hs : 0 < s) : IsMean ∅ (pdf · (fin nu) (fin loc) (fin s)) (mean (fin nu) (fin loc) (fin s)) :=
  (hasMV hn hs).isMean finite_empty (fun x _ => pdf_eval hn hs x) (mean_eval hn hs)

/-- C37 -/
theorem isVar (hn : 0 < nu) (hs : 0 < s) : IsVar ∅ (pdf · (fin nu) (fin loc) (fin s)) (var (fin nu) (fin loc) (fin s)) :=
  (hasMV hn hs).isVar finite_empty (fun x _ => pdf_eval hn hs x) (var_eval hn hs)

/-- C37 -/
theorem isEntropy (hn : 0 < nu) (hs : 0 < s) : IsEntropy ∅ (pdf · (fin nu) (fin loc) (fin s)) (entropy (fin nu) (fin loc) (fin s)) := by
  refine ((nakD.hasEnt hn hn).affine loc hs (f_nonneg hn)).isEntropy finite_empty (fun x _ => pdf_eval hn hs x) ?_
  simp only [entropy, validate_ok hn hs, ok_bind, one_def, ofNat_def, fin_div _ two_ne_zero, mp.digamma_pos hn, mp.log_pos hn,
    mp.loggamma_pos hn, mp.log_pos two_pos, mp.log_pos hs, fin_sub, fin_mul, fin_add, pure_eq_ok]

/-- C41 -/
theorem support_spec (hn : 0 < nu) (hs : 0 < s) : support (fin nu) (fin loc) (fin s) = .ok (fin loc, pinf) := by
  simp [support, validate_ok hn hs]

/-- C48 -/
theorem atInfinities (hn : 0 < nu) (hs : 0 < s) : AtInfinities (cdf · (fin nu) (fin loc) (fin s)) (sf · (fin nu) (fin loc) (fin s)) :=
  ⟨by simp [cdf, validate_ok hn hs], cdf_pinf hn hs, by simp [sf, validate_ok hn hs], sf_pinf hn hs⟩

/-- Non-vacuity -/
example : (∃ findroot, SecantFinder findroot) ∧ (0:ℝ) < 3 / 4 ∧ (1 / 2 : ℝ) < 3 / 4 ∧ (0:ℝ) < 2 :=
  ⟨exists_secantFinder, by norm_num, by norm_num, by norm_num⟩

end Mpsci.nakagami
