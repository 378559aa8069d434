import Verif.Lemmas.Dist.Genpareto
import Verif.Lemmas.Fit

/-! Properties of `genpareto`. -/

namespace Mpsci.genpareto

open Classical Num Spec common Filter Topology Set 

variable {k m s : ℝ}

/-- C01 -/
theorem complementary (hs : 0 < s) : Complementary (cdf · (fin k) (fin m) (fin s)) (sf · (fin k) (fin m) (fin s)) :=
  complementary_of (cdf_eval hs) (sf_eval hs)

/-- C02 -/
theorem isCdf (hs : 0 < s) : IsCdf (cdf · (fin k) (fin m) (fin s)) := (isDist hs).isCdf (cdf_eval hs)

/-- C03 -/
theorem isDensity (hs : 0 < s) : IsDensity (Top k m s) (Supp k m s) (pdf · (fin k) (fin m) (fin s)) (cdf · (fin k) (fin m) (fin s)) :=
  (isDist hs).isDensity (fun x hx => pdf_eval hs x hx) (cdf_eval hs) (f_zero hs)

/-- C05 -/
theorem inverts_cdf (hs : 0 < s) : Inverts (Inner k m s) (cdf · (fin k) (fin m) (fin s)) (invcdf · (fin k) (fin m) (fin s)) := by
  rw [← preimage_SInt hs]
  exact inverts_affine hs (fun x _ => cdf_eval hs x) (fun _ => invcdf_eval hs) (fun _ => F_Q hs)
    (fun _ => Q_F hs)

/-- C05 -/
theorem inverts_sf (hs : 0 < s) : Inverts (Inner k m s) (sf · (fin k) (fin m) (fin s)) (invsf · (fin k) (fin m) (fin s)) := by
  rw [← preimage_SInt hs]
  exact inverts_affine_compl hs (fun x _ => sf_eval hs x) (fun _ => invsf_eval hs) (fun _ => F_Q hs)
    (fun _ => Q_F hs)

/-- C06 -/
theorem rejects_p : RejectsBadP (invcdf · (fin k) (fin m) (fin s)) ∧ RejectsBadP (invsf · (fin k) (fin m) (fin s)) := by
  by_cases h : 0 < s
  · constructor <;> intro p hp <;> simp [invcdf, invsf, validateP_bad hp, validate_ok h]
  · constructor <;> intro p hp <;> simp [invcdf, invsf, validateP_bad hp, validate_bad h]

/-- C08 -/
theorem locScale  : LocScaleInvariant (fun x loc s => cdf x (fin k) loc s) ∧
    LocScaleInvariant (fun x loc s => sf x (fin k) loc s) := 
  ⟨locScale_of_std fun x _ _ hs => cdf_eval hs x,
   locScale_of_std (G := fun z => 1 - F k z) fun x _ _ hs => sf_eval hs x⟩

/-- C07.  The exception in `pdf` is at the upper end of the support when `xi < -1`. -/
theorem validates (x : ℝ) :
    ValidatesExactly (0 < s) (cdf (fin x) (fin k) (fin m) (fin s)) ∧
    ValidatesExactly (0 < s) (sf (fin x) (fin k) (fin m) (fin s)) ∧
    (x ∉ Top k m s → ValidatesExactly (0 < s) (pdf (fin x) (fin k) (fin m) (fin s))) ∧
    ValidatesExactly (0 < s) (logpdf (fin x) (fin k) (fin m) (fin s)) := by
  refine ⟨⟨fun h => ⟨_, cdf_eval h x⟩, fun h => ?_⟩, ⟨fun h => ⟨_, sf_eval h x⟩, fun h => ?_⟩,
    fun hx => ⟨fun h => ⟨_, pdf_eval h x hx⟩, fun h => ?_⟩, ⟨fun h => ?_, fun h => ?_⟩⟩
  · simp [cdf, validate_bad h]
  · simp [sf, validate_bad h]
  · simp [pdf, validate_bad h]
  · by_cases hx : x ∈ Supp k m s
    · have hx2 := hx
      rw [mem_supp h] at hx2; push Not at hx2
      rcases hx2.2.eq_or_lt with e | hb
      · have hk := neg_of_base hx2.1 e.symm.le
        rw [(top_iff h hk.ne x).1 e.symm]
        exact ⟨_, logpdf_top h hk⟩
      · exact ⟨_, logpdf_pos h hx.1 hb⟩
    · exact ⟨_, logpdf_out h hx⟩
  · simp [logpdf, validate_bad h]

/-- C07 fails at the upper end of the support for `xi = -2`: `pdf` raises ZeroDivisionError. -/
theorem pdf_raises : pdf (fin (1 / 2)) (fin (-2)) 0 1 = .error .zeroDivision := by
  have h1 := validate_ok (k := -2) (m := 0) one_pos
  have h := mp.power_zero_neg_half (y := -(1 / 2)) (k := -1) (by norm_num) (by norm_num)
  simp only [zero_def, one_def, pdf, h1, ok_bind, fin_sub, fin_div _ (one_ne_zero (α := ℝ)), outside_eval]
  norm_num [fin_div _ (show (-2:ℝ) ≠ 0 by norm_num)]
  norm_num [h]

/-- C08 -/
theorem locScale_pdf (hs : 0 < s) (x : ℝ) (hx : x ∉ Top k m s) :
    pdf (fin x) (fin k) (fin m) (fin s) =
      (do let v ← pdf (fin ((x - m) / s)) (fin k) 0 1; v /. fin s) := by
  have h : (x - m) / s ∉ Top k 0 1 := by
    rintro ⟨h1, h2⟩
    refine hx ⟨h1, ?_⟩
    rw [div_eq_iff hs.ne'] at h2
    have : (0 - 1 / k) * s = -(s / k) := by ring
    linarith
  rw [pdf_eval hs x hx, zero_def, one_def, pdf_eval one_pos _ h]
  simp [fin_div _ hs.ne']

/-- C04.  Excluded: the upper end of the support when `xi ≤ -1`. -/
theorem isLogOf (hs : 0 < s) : IsLogOf {x | k ≤ -1 ∧ x = m - s / k}
    (pdf · (fin k) (fin m) (fin s)) (logpdf · (fin k) (fin m) (fin s)) := by
  intro x hx
  have ht : x ∉ Top k m s := fun h => hx ⟨h.1.le, h.2⟩
  refine ⟨_, div_nonneg (f_nonneg k _) hs.le, pdf_eval hs x ht, ?_⟩
  by_cases hS : x ∈ Supp k m s
  · have hx2 := hS
    rw [mem_supp hs] at hx2; push Not at hx2
    rcases hx2.2.eq_or_lt with e | hb
    · have hk := neg_of_base hx2.1 e.symm.le
      have he := (top_iff hs hk.ne x).1 e.symm
      have h1 : -1 < k := by by_contra h; exact hx ⟨not_lt.1 h, he⟩
      have hp : -(1 / k + 1) ≠ 0 := by
        intro h
        have : 1 / k = -1 := by linarith
        rw [div_eq_iff hk.ne] at this; linarith
      have h0 : f k ((x - m) / s) / s = 0 := by
        rw [f, if_neg (by push Not; exact hx2), g, if_neg hk.ne, ← e, Real.zero_rpow hp, zero_div]
      rw [if_pos h0, he]; exact (logpdf_top hs hk).trans (by rw [if_pos h1])
    · have h0 : f k ((x - m) / s) / s ≠ 0 := by
        rw [f, if_neg (by push Not; exact hx2)]
        exact (div_pos (g_pos hb) hs).ne'
      rw [if_neg h0]; exact logpdf_pos hs hS.1 hb
  · rw [if_pos (f_zero hs x hS)]; exact logpdf_out hs hS

/-- C04 fails at the upper end of the support for `xi = -1` (the uniform case): `pdf` is `1/sigma`, but
`logpdf` computes `0 * -inf` and returns nan. -/
theorem isLogOf_fails (hs : 0 < s) : ¬ IsLogOf ∅
    (pdf · (fin (-1)) (fin m) (fin s)) (logpdf · (fin (-1)) (fin m) (fin s)) := by
  intro h
  obtain ⟨r, _, _, h2⟩ := h (m - s / -1) (by simp)
  simp only [logpdf_top hs (show (-1:ℝ) < 0 by norm_num), lt_irrefl, if_false, if_true] at h2
  split_ifs at h2 <;> cases h2

/-- C37 -/
theorem isMean (hk : k < 1) (hs : 0 < s) :
    IsMean (Top k m s) (pdf · (fin k) (fin m) (fin s)) (mean (fin k) (fin m) (fin s)) := by
  refine ((hasM_std hk).affine m hs).isMean (finite_Top k m s) (pdf_eval hs) ?_
  have : 1 - k ≠ 0 := by linarith
  simp [mean, validate_ok hs, hk, fin_div _ this]; ring

/-- C37 -/
theorem isVar (hk : k < 1 / 2) (hs : 0 < s) :
    IsVar (Top k m s) (pdf · (fin k) (fin m) (fin s)) (var (fin k) (fin m) (fin s)) := by
  refine ((hasMV_std hk).affine m hs).isVar (finite_Top k m s) (pdf_eval hs) ?_
  have h1 : (1 - k) ^ 2 ≠ 0 := pow_ne_zero _ (by linarith)
  have h2 : 1 - 2 * k ≠ 0 := by linarith
  simp only [var, validate_ok hs, ok_bind, fin_lt, hk, if_true, mp.ipow_fin, one_def, ofNat_def, fin_sub, fin_mul,
    fin_div _ h1, fin_div _ h2]
  congr 2; field_simp

/-- C37 -/
theorem isEntropy (hs : 0 < s) :
    IsEntropy (Top k m s) (pdf · (fin k) (fin m) (fin s)) (entropy (fin k) (fin m) (fin s)) := by
  refine ((hasEnt_std k).affine m hs (f_nonneg k)).isEntropy (finite_Top k m s) (pdf_eval hs) ?_
  simp [entropy, validate_ok hs, mp.log_pos hs]; ring

/-- C37: `mean` returns nan only where the mean does not exist. -/
theorem mean_nan (hk : 1 ≤ k) (hs : 0 < s) : mean (fin k) (fin m) (fin s) = .ok nan ∧
    ¬ ∃ r, IsMean (Top k m s) (pdf · (fin k) (fin m) (fin s)) r := by
  refine ⟨by simp [mean, validate_ok hs, hk.not_gt], ?_⟩
  exact not_isMean_of (pdf_eval hs) (isDist hs) (Q := fun p => m + s * Q k p)
    (fun p h0 h1 => by rw [show (m + s * Q k p - m) / s = Q k p by field_simp; ring]; exact (F_Q hs h0 h1).2)
    (not_integrableOn_affine hs.ne' (not_int_Q hk))

/-- C37: `var` returns nan only where the variance does not exist. -/
theorem var_nan (hk : 1 / 2 ≤ k) (hs : 0 < s) : var (fin k) (fin m) (fin s) = .ok nan ∧
    ¬ ∃ r, IsVar (Top k m s) (pdf · (fin k) (fin m) (fin s)) r := by
  refine ⟨by simp only [var, validate_ok hs, ok_bind, fin_lt, hk.not_gt, if_false, pure_eq_ok], ?_⟩
  exact not_isVar_of (pdf_eval hs) (isDist hs) (Q := fun p => m + s * Q k p)
    (fun p h0 h1 => by rw [show (m + s * Q k p - m) / s = Q k p by field_simp; ring]; exact (F_Q hs h0 h1).2)
    (not_int_Q2 hk m hs)

/-- C41 -/
theorem endPoints (hs : 0 < s) :
    EndPoints (invcdf · (fin k) (fin m) (fin s)) (fin m) (if 0 ≤ k then pinf else fin (m - s / k)) ∧
    EndPoints (invsf · (fin k) (fin m) (fin s)) (if 0 ≤ k then pinf else fin (m - s / k)) (fin m) := by
  by_cases h : 0 ≤ k
  · refine ⟨⟨?_, ?_⟩, ?_, ?_⟩ <;>
    simp [invcdf, invsf, validateP_ok, validate_ok hs, h]
  · have hk : k ≠ 0 := fun e => h e.ge
    refine ⟨⟨?_, ?_⟩, ?_, ?_⟩ <;>
    simp [invcdf, invsf, validateP_ok, validate_ok hs, h, fin_div _ hk]

/-- C48 -/
theorem atInfinities (hs : 0 < s) : AtInfinities (cdf · (fin k) (fin m) (fin s)) (sf · (fin k) (fin m) (fin s)) := by
  rcases lt_trichotomy k 0 with h | h | h
  · refine ⟨?_, ?_, ?_, ?_⟩ <;>
    simp [cdf, sf, validate_ok hs, pinf_div_pos hs, ninf_div_pos hs, h, h.not_ge, fin_div _ h.ne]
  · subst h
    refine ⟨?_, ?_, ?_, ?_⟩ <;>
    simp [cdf, sf, validate_ok hs, pinf_div_pos hs, ninf_div_pos hs]
  · have h1 : mp.power pinf (fin (-1 / k)) = .ok 0 := by
      have hn : -1 / k < 0 := div_neg_of_neg_of_pos (by norm_num) h
      simp [mp.power, hn.not_gt, hn.ne]
    refine ⟨?_, ?_, ?_, ?_⟩ <;>
    simp [cdf, sf, validate_ok hs, pinf_div_pos hs, ninf_div_pos hs, h.le, h.not_gt, h.ne', fin_div _ h.ne',
      scaleInf_pos h, mp.powm1, h1]

theorem support_eq (hs : 0 < s) : support (fin k) (fin m) (fin s) =
    .ok (fin m, if 0 ≤ k then pinf else fin (m - s / k)) := by
  by_cases h : 0 ≤ k
  · simp [support, validate_ok hs, h]
  · have hk : k ≠ 0 := fun e => h e.ge
    simp [support, validate_ok hs, h, fin_div _ hk]

/-- C30 -/
theorem nll_spec (hs : 0 < s) : NllIsNegSum {x | m ≤ x ∧ (k < 0 → x < m - s / k)}
    (logpdf · (fin k) (fin m) (fin s)) (nll · (fin k) (fin m) (fin s)) := by
  have hb : ∀ x ∈ {x | m ≤ x ∧ (k < 0 → x < m - s / k)}, 0 < 1 + k * ((x - m) / s) := by
    intro x hx
    have h1 : x ∈ Supp k m s := ⟨hx.1, fun h => (hx.2 h).le⟩
    rw [mem_supp hs] at h1; push Not at h1
    refine h1.2.lt_of_ne fun e => ?_
    have hk := neg_of_base h1.1 e.symm.le
    exact (hx.2 hk).ne ((top_iff hs hk.ne x).1 e.symm)
  refine nll_of_fsum (fun x hx => logpdf_pos hs hx.1 (hb x hx)) fun xs hx => ?_
  by_cases h : 0 ≤ k
  · simp only [nll, validate_ok hs, ok_bind, zero_def, fin_le, h, if_true, pure_eq_ok]
    rw [validateXBounds_ok (by rw [badLow_weak]; rintro ⟨t, h1, h2⟩; exact absurd (hx t h1).1 h2.not_ge) (by simp), ok_bind]
  · have hk : k < 0 := not_le.1 h
    simp only [nll, validate_ok hs, ok_bind, zero_def, fin_le, h, if_false, fin_div _ hk.ne, fin_sub, pure_eq_ok]
    rw [validateXBounds_ok (by rw [badLow_weak]; rintro ⟨t, h1, h2⟩; exact absurd (hx t h1).1 h2.not_ge)
      (by rw [badHigh_weak]; rintro ⟨t, h1, h2⟩; exact absurd ((hx t h1).2 hk) h2.not_gt), ok_bind]

/-- C30 -/
theorem nll_rejects (hs : 0 < s) : NllRejects (Supp k m s) (nll · (fin k) (fin m) (fin s)) := by
  rintro xs ⟨x, hx, hn⟩
  by_cases h : 0 ≤ k
  · have : badLow (xs.map fin) (some (fin m)) false := by
      rw [badLow_weak]
      exact ⟨x, hx, by by_contra hc; exact hn ⟨not_lt.1 hc, fun h2 => absurd h2 h.not_gt⟩⟩
    simp [nll, validate_ok hs, h, validateXBounds_low this]
  · have hk : k < 0 := not_le.1 h
    simp only [nll, validate_ok hs, ok_bind, zero_def, fin_le, h, if_false, fin_div _ hk.ne, fin_sub, pure_eq_ok]
    by_cases hm : m ≤ x
    · rw [validateXBounds_high]; · rfl
      rw [badHigh_weak]
      exact ⟨x, hx, by by_contra hc; exact hn ⟨hm, fun _ => not_lt.1 hc⟩⟩
    · rw [validateXBounds_low]; · rfl
      rw [badLow_weak]; exact ⟨x, hx, not_le.1 hm⟩

/-- Non-vacuity: `xi = 1`, `mu = 2`, `sigma = 3`: `cdf(5) = 1/2`; with `xi = -1` the mean is `2 + 3/2`. -/
example : (0:ℝ) < 3 ∧ cdf (fin 5) (fin 1) (fin 2) (fin 3) = .ok (fin (1 / 2)) ∧
    mean (fin (-1)) (fin 2) (fin 3) = .ok (fin (7 / 2)) := by
  refine ⟨by norm_num, ?_, ?_⟩
  · rw [cdf_eval (by norm_num)]; norm_num [F, G, Real.rpow_neg_one]
  · simp only [mean, validate_ok (show (0:ℝ) < 3 by norm_num), ok_bind, one_def, fin_lt, fin_sub,
      fin_div _ (show (1 - -1:ℝ) ≠ 0 by norm_num)]
    norm_num

end Mpsci.genpareto
