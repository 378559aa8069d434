import Verif.Lemmas.Dist.Maxwell
import Verif.Props.Dist.Chi

/-! Properties of `maxwell`. -/

namespace Mpsci.maxwell

open Classical Num Spec common Filter Topology Set

variable {loc s : ℝ} {findroot : (Num → M Num) → Num → Num → M Num} {newton : (Num → M Num) → Num → M Num}

/-- C01 -/
theorem complementary (hs : 0 < s) :
    Complementary (cdf · (fin loc) (fin s)) (sf · (fin loc) (fin s)) := complementary_of (cdf_eval hs) (sf_eval hs)

/-- C02 -/
theorem isCdf (hs : 0 < s) : IsCdf (cdf · (fin loc) (fin s)) := (isDist hs).isCdf (cdf_eval hs)

/-- C03 -/
theorem isDensity (hs : 0 < s) : IsDensity ∅ (Ioi loc) (pdf · (fin loc) (fin s)) (cdf · (fin loc) (fin s)) :=
  (isDist hs).isDensity (fun x _ => pdf_eval hs x) (cdf_eval hs) (f_zero hs)

/-- C04, C42 -/
theorem isLogOf (hs : 0 < s) : IsLogOf ∅ (pdf · (fin loc) (fin s)) (logpdf · (fin loc) (fin s)) :=
  isLogOf_of (P := Ioi loc) (g := fun x => f ((x - loc) / s) / s) (fun _ _ hx => f_pos hs hx) (fun x _ hx => f_zero hs x hx)
    (fun x _ => pdf_eval hs x) (fun x _ hx => logpdf_pos hs hx) (fun x _ hx => logpdf_low hs (not_lt.1 hx))

/-- C05: assuming that the secant method finds the root (the starting points are in `[0, ∞)` whatever `loc` is) -/
theorem inverts_cdf (hr : SecantFinder findroot) (hs : 0 < s) : InvertsSearch (Ioi loc) (cdf · (fin loc) (fin s))
    (fun fuel p => invcdf findroot newton fuel p (fin loc) (fin s)) := by
  refine invertsSearch_of (F := fun x => F ((x - loc) / s)) (fun x _ => cdf_eval hs x) (fun x hx => F_mem hs hx)
    (fun p h0 h1 => ⟨_, lt_add_of_pos_right _ (mul_pos hs (nakD.Q_pos h12 p)), F_Q hs p h0 h1⟩) fun x hx => ?_
  obtain ⟨h0, h1⟩ := F_mem hs hx
  obtain ⟨N, h⟩ := search_right hr (newton := newton) (func := fun x => cdf x (fin loc) (fin s)) (func2 := fun x => cdf x (fin loc) (fin s))
    (g := fun x => F ((x - loc) / s)) (T := x) (cdf_eval hs) (cdf_pinf hs) h1.ne (F_unique hs hx)
    (pass_up (isDist hs).mono (F_lt_one _))
  refine ⟨N, fun fuel hN => ?_⟩
  simp only [invcdf, validate_ok hs, ok_bind, validateP_ok h0.le h1.le, zero_def, one_def, fin_eq, h0.ne', h1.ne, if_false]
  exact h fuel hN

/-- C05: assuming that the secant method finds the root -/
theorem inverts_sf (hr : SecantFinder findroot) (hs : 0 < s) : InvertsSearch (Ioi loc) (sf · (fin loc) (fin s))
    (fun fuel p => invsf findroot newton fuel p (fin loc) (fin s)) := by
  have hm : ∀ x ∈ Ioi loc, 0 < 1 - F ((x - loc) / s) ∧ 1 - F ((x - loc) / s) < 1 := fun x hx => by
    obtain ⟨h0, h1⟩ := F_mem hs hx
    exact ⟨by linarith, by linarith⟩
  refine invertsSearch_of (F := fun x => 1 - F ((x - loc) / s)) (fun x _ => sf_eval hs x) hm
    (fun p h0 h1 => ⟨_, lt_add_of_pos_right _ (mul_pos hs (nakD.Q_pos h12 (1 - p))), by
      have := F_Q (loc := loc) hs (1 - p) (by linarith) (by linarith)
      rw [Q] at this
      rw [this]; ring⟩) fun x hx => ?_
  obtain ⟨h0, h1⟩ := hm x hx
  obtain ⟨N, h⟩ := search_right hr (newton := newton) (func := fun x => sf x (fin loc) (fin s)) (func2 := fun x => cdf x (fin loc) (fin s))
    (g := fun x => 1 - F ((x - loc) / s)) (T := x) (sf_eval hs) (sf_pinf hs) h0.ne' (fun y h => F_unique hs hx y (by linarith))
    (pass_down (fun a b h => sub_le_sub_left ((isDist hs).mono h) 1) (by have := F_lt_one ((0 - loc) / s); linarith))
  refine ⟨N, fun fuel hN => ?_⟩
  simp only [invsf, validate_ok hs, ok_bind, validateP_ok h0.le h1.le, zero_def, one_def, fin_eq, h0.ne', h1.ne, if_false]
  exact h fuel hN

/-- C06 -/
theorem rejects_p (fuel : ℕ) : RejectsBadP (invcdf findroot newton fuel · (fin loc) (fin s)) ∧
    RejectsBadP (invsf findroot newton fuel · (fin loc) (fin s)) := by
  constructor <;> intro p hp <;> simp [invcdf, invsf, validateP_bad hp]

/-- C07 -/
theorem validates (x : ℝ) :
    ValidatesExactly (0 < s) (cdf (fin x) (fin loc) (fin s)) ∧
    ValidatesExactly (0 < s) (sf (fin x) (fin loc) (fin s)) ∧
    ValidatesExactly (0 < s) (pdf (fin x) (fin loc) (fin s)) ∧
    ValidatesExactly (0 < s) (logpdf (fin x) (fin loc) (fin s)) := by
  refine ⟨⟨fun h => ⟨_, cdf_eval h x⟩, fun h => ?_⟩, ⟨fun h => ⟨_, sf_eval h x⟩, fun h => ?_⟩,
    ⟨fun h => pdf_returns h x, fun h => ?_⟩, ⟨fun h => logpdf_returns h x, fun h => ?_⟩⟩ <;>
  simp [cdf, sf, pdf, logpdf, validate_bad h]

/-- C07 -/
theorem validates_moments : ValidatesExactly (0 < s) (mean (fin loc) (fin s)) ∧ ValidatesExactly (0 < s) (var (fin loc) (fin s)) ∧
    ValidatesExactly (0 < s) (mode (fin loc) (fin s)) := by
  refine ⟨⟨fun h => ⟨_, mean_eval h⟩, fun h => ?_⟩, ⟨fun h => ⟨_, var_eval h⟩, fun h => ?_⟩, ⟨fun h => ⟨_, mode_eval h⟩, fun h => ?_⟩⟩ <;>
  simp [mean, var, mode, validate_bad h]

/-- C08 -/
theorem locScale : LocScaleInvariant (cdf · · ·) ∧ LocScaleInvariant (sf · · ·) ∧ LocScaleDensity (pdf · · ·) :=
  ⟨locScale_of_std fun x _ _ hs => cdf_eval hs x,
   locScale_of_std (G := fun z => 1 - F z) fun x _ _ hs => sf_eval hs x,
   locScaleDensity_of_std fun x _ _ hs => pdf_eval hs x⟩

/-- C09 -/
theorem isMode (hs : 0 < s) : IsMode ∅ (pdf · (fin loc) (fin s)) (mode (fin loc) (fin s)) := by
  refine isMode_of (mode_eval hs) (fun x _ => pdf_eval hs x) (by simp) (fun y _ => ?_)
  rw [add_sub_cancel_left, mul_div_cancel_left₀ _ hs.ne']
  have := nakD.f_le (show (1 / 2 : ℝ) < 3 / 2 by norm_num) h12 ((y - loc) / s)
  rw [show ((3:ℝ) / 2 - 1 / 2) / (1 / 2) = 2 by norm_num] at this
  exact div_le_div_of_nonneg_right this hs.le

/-- C12: the Maxwell distribution is the chi distribution with three degrees of freedom. -/
theorem eq_chi (x : ℝ) : pdf (fin x) (fin 0) (fin 1) = chi.pdf (fin x) (fin 3) ∧ cdf (fin x) (fin 0) (fin 1) = chi.cdf (fin x) (fin 3) ∧
    sf (fin x) (fin 0) (fin 1) = chi.sf (fin x) (fin 3) := by
  have e : (x - 0) / 1 = x := by ring
  rw [pdf_eval one_pos, cdf_eval one_pos, sf_eval one_pos, chi.cdf_eval three_pos, chi.sf_eval three_pos, e, div_one]
  refine ⟨?_, rfl, rfl⟩
  exact (chi.pdf_eval three_pos x (Or.inl (by norm_num))).symm

/-- C37 -/
theorem isMean (hs : 0 < s) : IsMean ∅ (pdf · (fin loc) (fin s)) (mean (fin loc) (fin s)) :=
  (hasMV hs).isMean finite_empty (fun x _ => pdf_eval hs x) (mean_eval hs)

/-- C37 -/
theorem isVar (hs : 0 < s) : IsVar ∅ (pdf · (fin loc) (fin s)) (var (fin loc) (fin s)) :=
  (hasMV hs).isVar finite_empty (fun x _ => pdf_eval hs x) (var_eval hs)

/-- C37 -/
theorem isEntropy (hs : 0 < s) : IsEntropy ∅ (pdf · (fin loc) (fin s)) (entropy (fin loc) (fin s)) := by
  refine (hasEnt.affine loc hs f_nonneg).isEntropy finite_empty (fun x _ => pdf_eval hs x) ?_
  have hp : 0 < √(2 * Real.pi) := Real.sqrt_pos.2 (by positivity)
  simp only [entropy, validate_ok hs, ok_bind, one_def, ofNat_def, mp.pi_def, fin_mul, mp.sqrt_nonneg (show 0 ≤ 2 * Real.pi by positivity),
    mp.log_pos (mul_pos hs hp), mp.euler_def, fin_div _ two_ne_zero, fin_sub, fin_add, pure_eq_ok, Real.log_mul hs.ne' hp.ne']
  congr 2; ring

/-- C41 -/
theorem support_spec (hs : 0 < s) : support (fin loc) (fin s) = .ok (fin loc, pinf) := by simp [support, validate_ok hs]

/-- C41 fails: the quantile functions return 0 for the lower end of the support, whatever `loc` is. -/
theorem lower_end_fails (hs : 0 < s) (fuel : ℕ) : invcdf findroot newton fuel (fin 0) (fin loc) (fin s) = .ok (fin 0) ∧
    invsf findroot newton fuel (fin 1) (fin loc) (fin s) = .ok (fin 0) ∧
    invcdf findroot newton fuel (fin 1) (fin loc) (fin s) = .ok pinf ∧ invsf findroot newton fuel (fin 0) (fin loc) (fin s) = .ok pinf := by
  have h0 : validateP (fin 0) = .ok (fin 0) := validateP_ok le_rfl zero_le_one
  have h1 : validateP (fin 1) = .ok (fin 1) := validateP_ok zero_le_one le_rfl
  simp [invcdf, invsf, validate_ok hs, h0, h1]

/-- C48 -/
theorem atInfinities (hs : 0 < s) : AtInfinities (cdf · (fin loc) (fin s)) (sf · (fin loc) (fin s)) :=
  ⟨by simp [cdf, validate_ok hs], cdf_pinf hs, by simp [sf, validate_ok hs], sf_pinf hs⟩

/-- Non-vacuity -/
example : (∃ findroot, SecantFinder findroot) ∧ (0:ℝ) < 2 := ⟨exists_secantFinder, by norm_num⟩

end Mpsci.maxwell
