import Verif.Lemmas.Dist.InvGauss
import Verif.Lemmas.InvGaussEnt

/-! Properties of `invgauss`. -/

namespace Mpsci.invgauss

open Classical Num Spec common Filter Topology Set igD

variable {m loc s eps : ℝ}

/-- C01 -/
theorem complementary (hm : 0 < m) (hs : 0 < s) :
    Complementary (cdf · (fin m) (fin loc) (fin s)) (sf · (fin m) (fin loc) (fin s)) := complementary_of (cdf_eval hm hs) (sf_eval hm hs)

/-- C02 -/
theorem isCdf (hm : 0 < m) (hs : 0 < s) : IsCdf (cdf · (fin m) (fin loc) (fin s)) := (isDist hm hs).isCdf (cdf_eval hm hs)

/-- C03 -/
theorem isDensity (hm : 0 < m) (hs : 0 < s) :
    IsDensity ∅ (Ioi loc) (pdf · (fin m) (fin loc) (fin s)) (cdf · (fin m) (fin loc) (fin s)) :=
  (isDist hm hs).isDensity (fun x _ => pdf_eval hm hs x) (cdf_eval hm hs) (f_zero hm hs)

/-- C04, C42 -/
theorem isLogOf (hm : 0 < m) (hs : 0 < s) : IsLogOf ∅ (pdf · (fin m) (fin loc) (fin s)) (logpdf · (fin m) (fin loc) (fin s)) :=
  isLogOf_of (P := Ioi loc) (g := fun x => f m ((x - loc) / s) / s) (fun _ _ hx => f_pos hm hs hx) (fun x _ hx => f_zero hm hs x hx)
    (fun x _ => pdf_eval hm hs x) (fun x _ hx => logpdf_pos hm hs hx) (fun x _ hx => logpdf_low hm hs (not_lt.1 hx))

/-- C05: for every tolerance `eps > 0` of the stopping test the iteration ends.  The value `y` returned lies between the mode `c` and
the exact quantile `r`, and `cdf(y)` differs from `p` by at most `eps * pdf(c) * max(1, |c|, |r|)`. -/
theorem inverts_cdf_newton (he : 0 < eps) (hm : 0 < m) (hs : 0 < s) {p : ℝ} (h0 : 0 < p) (h1 : p < 1) :
    ∃ c r y q d : ℝ, mode (fin m) (fin loc) (fin s) = .ok (fin c) ∧ loc < r ∧ cdf (fin r) (fin m) (fin loc) (fin s) = .ok (fin p) ∧
      pdf (fin c) (fin m) (fin loc) (fin s) = .ok (fin d) ∧ loc < y ∧ y ∈ uIcc c r ∧
      Reaches (fun fuel => invcdf eps fuel (fin p) (fin m) (fin loc) (fin s)) (fin y) ∧
      cdf (fin y) (fin m) (fin loc) (fin s) = .ok (fin q) ∧ |q - p| ≤ eps * d * max 1 (max |c| |r|) := by
  obtain ⟨y, hy, hu, ⟨N, hN⟩, hb⟩ := step_spec (loc := loc) hm hs he h0 h1 (step := cdfStep (fin p) (fin m) (fin loc) (fin s))
    fun x hx => by
      simp only [cdfStep, cdf_eval hm hs, pdf_eval hm hs, ok_bind, fin_sub, fin_div _ (f_pos hm hs hx).ne', fin_add, pure_eq_ok]
  refine ⟨_, _, y, _, _, mode_eval hm hs, lt_add_of_pos_right _ (mul_pos hs (Q_pos p)), (cdf_eval hm hs _).trans (by rw [F_Q hm hs p h0 h1]),
    pdf_eval hm hs _, hy, hu, ⟨N, fun fuel hf => ?_⟩, cdf_eval hm hs y, hb⟩
  simp only [invcdf, validate_ok hm hs, ok_bind, validateP_ok h0.le h1.le, zero_def, one_def, fin_eq, h0.ne', h1.ne, if_false,
    mode_eval hm hs]
  exact hN fuel hf

/-- C05: the same for `invsf`. -/
theorem inverts_sf_newton (he : 0 < eps) (hm : 0 < m) (hs : 0 < s) {p : ℝ} (h0 : 0 < p) (h1 : p < 1) :
    ∃ c r y q d : ℝ, mode (fin m) (fin loc) (fin s) = .ok (fin c) ∧ loc < r ∧ sf (fin r) (fin m) (fin loc) (fin s) = .ok (fin p) ∧
      pdf (fin c) (fin m) (fin loc) (fin s) = .ok (fin d) ∧ loc < y ∧ y ∈ uIcc c r ∧
      Reaches (fun fuel => invsf eps fuel (fin p) (fin m) (fin loc) (fin s)) (fin y) ∧
      sf (fin y) (fin m) (fin loc) (fin s) = .ok (fin q) ∧ |q - p| ≤ eps * d * max 1 (max |c| |r|) := by
  have h0' : 0 < 1 - p := by linarith
  have h1' : 1 - p < 1 := by linarith
  obtain ⟨y, hy, hu, ⟨N, hN⟩, hb⟩ := step_spec (loc := loc) hm hs he h0' h1' (step := sfStep (fin p) (fin m) (fin loc) (fin s))
    fun x hx => by
      simp only [sfStep, sf_eval hm hs, pdf_eval hm hs, ok_bind, fin_sub, fin_div _ (f_pos hm hs hx).ne', pure_eq_ok]
      congr 2; ring
  refine ⟨_, _, y, _, _, mode_eval hm hs, lt_add_of_pos_right _ (mul_pos hs (Q_pos (1 - p))),
    (sf_eval hm hs _).trans (by rw [F_Q hm hs _ h0' h1', sub_sub_cancel]),
    pdf_eval hm hs _, hy, hu, ⟨N, fun fuel hf => ?_⟩, sf_eval hm hs y, ?_⟩
  · simp only [invsf, validate_ok hm hs, ok_bind, validateP_ok h0.le h1.le, zero_def, one_def, fin_eq, h0.ne', h1.ne, if_false,
      mode_eval hm hs]
    exact hN fuel hf
  · refine le_trans (le_of_eq ?_) hb
    rw [abs_sub_comm]; congr 1; ring

/-- C06 -/
theorem rejects_p (hm : 0 < m) (hs : 0 < s) (fuel : ℕ) : RejectsBadP (invcdf eps fuel · (fin m) (fin loc) (fin s)) ∧
    RejectsBadP (invsf eps fuel · (fin m) (fin loc) (fin s)) := by
  constructor <;> intro p hp <;> simp [invcdf, invsf, validate_ok hm hs, validateP_bad hp]

/-- C07 -/
theorem validates (x : ℝ) :
    ValidatesExactly (0 < m ∧ 0 < s) (cdf (fin x) (fin m) (fin loc) (fin s)) ∧
    ValidatesExactly (0 < m ∧ 0 < s) (sf (fin x) (fin m) (fin loc) (fin s)) ∧
    ValidatesExactly (0 < m ∧ 0 < s) (pdf (fin x) (fin m) (fin loc) (fin s)) ∧
    ValidatesExactly (0 < m ∧ 0 < s) (logpdf (fin x) (fin m) (fin loc) (fin s)) ∧
    ValidatesExactly (0 < m ∧ 0 < s) (mode (fin m) (fin loc) (fin s)) := by
  refine ⟨⟨fun h => ⟨_, cdf_eval h.1 h.2 x⟩, fun h => ?_⟩, ⟨fun h => ⟨_, sf_eval h.1 h.2 x⟩, fun h => ?_⟩,
    ⟨fun h => pdf_returns h.1 h.2 x, fun h => ?_⟩, ⟨fun h => logpdf_returns h.1 h.2 x, fun h => ?_⟩,
    ⟨fun h => ⟨_, mode_eval h.1 h.2⟩, fun h => ?_⟩⟩ <;>
  simp [cdf, sf, pdf, logpdf, mode, validate_bad h]

/-- C07 -/
theorem validates_rest (h : ¬ (0 < m ∧ 0 < s)) (fuel : ℕ) (p : Num) (n : ℕ) :
    invcdf eps fuel p (fin m) (fin loc) (fin s) = .error .valueError ∧ invsf eps fuel p (fin m) (fin loc) (fin s) = .error .valueError ∧
    mean (fin m) (fin loc) (fin s) = .error .valueError ∧ var (fin m) (fin loc) (fin s) = .error .valueError ∧
    median eps fuel (fin m) (fin loc) (fin s) = .error .valueError ∧ logcdf p (fin m) (fin loc) (fin s) = .error .valueError ∧
    logsf p (fin m) (fin loc) (fin s) = .error .valueError ∧ support (fin m) (fin loc) (fin s) = .error .valueError ∧
    noncentralMoment n (fin m) (fin loc) (fin s) = .error .valueError := by
  have hv : validateMomentN (n : ℤ) = .ok n := by simp [validateMomentN]
  simp [invcdf, invsf, mean, var, median, logcdf, logsf, support, noncentralMoment, hv, validate_bad h]

/-- C08 -/
theorem locScale (hm : 0 < m) : LocScaleInvariant (fun x loc s => cdf x (fin m) loc s) ∧
    LocScaleInvariant (fun x loc s => sf x (fin m) loc s) ∧ LocScaleDensity (fun x loc s => pdf x (fin m) loc s) :=
  ⟨locScale_of_std fun x _ _ hs => cdf_eval hm hs x,
   locScale_of_std (G := fun z => 1 - F m z) fun x _ _ hs => sf_eval hm hs x,
   locScaleDensity_of_std fun x _ _ hs => pdf_eval hm hs x⟩

/-- C09 -/
theorem isMode (hm : 0 < m) (hs : 0 < s) :
    IsMode ∅ (pdf · (fin m) (fin loc) (fin s)) (mode (fin m) (fin loc) (fin s)) := by
  refine isMode_of (mode_eval hm hs) (fun x _ => pdf_eval hm hs x) (by simp) (fun y _ => ?_)
  rw [add_sub_cancel_left, mul_div_cancel_left₀ _ hs.ne']
  exact div_le_div_of_nonneg_right (igD.f_le hm _) hs.le

/-- C51 -/
theorem isLogOf_cdf (hm : 0 < m) (hs : 0 < s) : IsLogOf ∅ (cdf · (fin m) (fin loc) (fin s)) (logcdf · (fin m) (fin loc) (fin s)) :=
  isLogOf_of (P := Ioi loc) (fun _ _ hx => (F_mem hm ((affine_gt_zero hs).2 hx)).1)
    (fun x _ hx => F_nonpos ((affine_le_zero hs).2 (not_lt.1 hx)))
    (fun x _ => cdf_eval hm hs x) (fun x _ hx => logcdf_pos hm hs hx)
    (fun x _ hx => by simp [logcdf, validate_ok hm hs, not_lt.1 (show ¬ loc < x from hx)])

/-- C51 -/
theorem isLogOf_sf (hm : 0 < m) (hs : 0 < s) : IsLogOf ∅ (sf · (fin m) (fin loc) (fin s)) (logsf · (fin m) (fin loc) (fin s)) := by
  refine isLogOf_of (P := univ) (fun x _ _ => ?_) (fun x _ hx => absurd (mem_univ x) hx)
    (fun x _ => sf_eval hm hs x) (fun x _ _ => ?_) (fun x _ hx => absurd (mem_univ x) hx)
  · rcases le_or_gt x loc with h | h
    · rw [F_nonpos ((affine_le_zero hs).2 h)]; norm_num
    · have := (F_mem hm ((affine_gt_zero hs).2 h)).2; linarith
  · rcases le_or_gt x loc with h | h
    · simp [logsf, validate_ok hm hs, h, F_nonpos ((affine_le_zero hs).2 h)]
    · exact logsf_pos hm hs h

/-- C10: `median` is the value of the quantile iteration at one half (see `inverts_cdf_newton`). -/
theorem median_newton (he : 0 < eps) (hm : 0 < m) (hs : 0 < s) :
    ∃ c r y q d : ℝ, mode (fin m) (fin loc) (fin s) = .ok (fin c) ∧ loc < r ∧ cdf (fin r) (fin m) (fin loc) (fin s) = .ok (fin (1 / 2)) ∧
      pdf (fin c) (fin m) (fin loc) (fin s) = .ok (fin d) ∧ loc < y ∧ y ∈ uIcc c r ∧
      Reaches (fun fuel => median eps fuel (fin m) (fin loc) (fin s)) (fin y) ∧
      cdf (fin y) (fin m) (fin loc) (fin s) = .ok (fin q) ∧ |q - 1 / 2| ≤ eps * d * max 1 (max |c| |r|) := by
  have h := inverts_cdf_newton (loc := loc) he hm hs (p := 1 / 2) (by norm_num) (by norm_num)
  simpa only [median, validate_ok hm hs, ok_bind, one_def, ofNat_def, fin_div _ (two_ne_zero (α := ℝ))] using h

/-- C37 -/
theorem isMean (hm : 0 < m) (hs : 0 < s) : IsMean ∅ (pdf · (fin m) (fin loc) (fin s)) (mean (fin m) (fin loc) (fin s)) :=
  (hasMV hm hs).isMean finite_empty (fun x _ => pdf_eval hm hs x) (by
    simp only [mean, validate_ok hm hs, ok_bind, fin_mul, fin_add, pure_eq_ok, add_comm])

/-- C37 -/
theorem isVar (hm : 0 < m) (hs : 0 < s) : IsVar ∅ (pdf · (fin m) (fin loc) (fin s)) (var (fin m) (fin loc) (fin s)) :=
  (hasMV hm hs).isVar finite_empty (fun x _ => pdf_eval hm hs x) (by
    simp only [var, validate_ok hm hs, ok_bind, mp.ipow_fin, fin_mul, pure_eq_ok])

/-- C37 -/
theorem isEntropy (hm : 0 < m) (hs : 0 < s) :
    IsEntropy ∅ (pdf · (fin m) (fin loc) (fin s)) (entropy (fin m) (fin loc) (fin s)) := by
  have h2 : 0 < 2 / m := by positivity
  have hpi : 0 < 2 * Real.pi := by have := Real.pi_pos; positivity
  refine ((igD.hasEnt hm).affine loc hs igD.f_nonneg).isEntropy finite_empty (fun x _ => pdf_eval hm hs x) ?_
  simp only [entropy, validate_ok hm hs, ok_bind, ofNat_def, mp.pi_def, fin_mul, mp.log_pos hpi, mp.log_pos hm, mp.log_pos hs, one_def,
    fin_add, fin_div _ (two_ne_zero (α := ℝ)), fin_div _ hm.ne', mp.exp_fin, mp.e1_pos h2, fin_sub, pure_eq_ok]

/-- C37, C50: the moments of every order. -/
theorem isMoment (hm : 0 < m) (n : ℕ) (hs : 0 < s) :
    IsMoment ∅ (pdf · (fin m) (fin loc) (fin s)) n (noncentralMoment n (fin m) (fin loc) (fin s)) := by
  have hi : Int01 (fun p => (loc + s * Q m p) ^ n)
      (∑ j ∈ Finset.range (n + 1), (n.choose j : ℝ) * loc ^ (n - j) * s ^ j * SM m j) := by
    have := Int01.sum (Finset.range (n + 1)) fun j _ => (Yn hm j).mul ((n.choose j : ℝ) * loc ^ (n - j) * s ^ j)
    refine this.congr fun p _ _ => ?_
    rw [add_comm, add_pow]
    exact Finset.sum_congr rfl fun j _ => by rw [mul_pow]; ring
  refine isMoment_of_int01 finite_empty (fun x _ => pdf_eval hm hs x) (isDist hm hs) (F_Q hm hs) hi ?_
  have hv : validateMomentN (n : ℤ) = .ok n := by simp [validateMomentN]
  simp only [noncentralMoment, hv, validate_ok hm hs, ok_bind]
  rcases Nat.eq_zero_or_pos n with rfl | h0
  · simp [SM]
  · have h1 : ∀ j ∈ List.range (n + 1),
        (do return (← mp.binomial n j) * mp.ipow (fin loc) (n - j) * mp.ipow (fin s) j *
          (← standardNoncentralMoment j (fin m)) : M Num) =
          .ok (fin ((n.choose j : ℝ) * loc ^ (n - j) * s ^ j * SM m j)) := by
      intro j _
      simp only [mp.binomial_nat, ok_bind, fin_mul, mp.ipow_fin, snm_eval, pure_eq_ok]
    simp only [h0.ne', if_false]
    rw [mapM_ok _ h1]
    simp only [ok_bind, mp.fsum_map_fin, pure_eq_ok]
    rw [← List.sum_toFinset _ List.nodup_range, List.toFinset_range]

/-- C50 -/
theorem moment_rejects {n : ℤ} (hn : n < 0) : noncentralMoment n (fin m) (fin loc) (fin s) = .error .valueError := by
  simp [noncentralMoment, validateMomentN, hn]

/-- C41 -/
theorem endPoints (hm : 0 < m) (hs : 0 < s) (fuel : ℕ) :
    EndPoints (invcdf eps fuel · (fin m) (fin loc) (fin s)) (fin loc) pinf ∧
    EndPoints (invsf eps fuel · (fin m) (fin loc) (fin s)) pinf (fin loc) := by
  refine ⟨⟨?_, ?_⟩, ?_, ?_⟩ <;> simp [invcdf, invsf, validateP_ok, validate_ok hm hs]

/-- C41 -/
theorem support_spec (hm : 0 < m) (hs : 0 < s) : support (fin m) (fin loc) (fin s) = .ok (fin loc, pinf) := by
  simp [support, validate_ok hm hs]

/-- C48 holds at `-inf` -/
theorem atNegInfinity (hm : 0 < m) (hs : 0 < s) : cdf ninf (fin m) (fin loc) (fin s) = .ok 0 ∧ sf ninf (fin m) (fin loc) (fin s) = .ok 1 :=
  ⟨by simp [cdf, validate_ok hm hs], by simp [sf, validate_ok hm hs]⟩

/-- C48 fails at `+inf` for all parameters: both functions compute `inf/inf` and return nan. -/
theorem atInfinities_fails (hm : 0 < m) (hs : 0 < s) : cdf pinf (fin m) (fin loc) (fin s) = .ok nan ∧
    sf pinf (fin m) (fin loc) (fin s) = .ok nan ∧
    ¬ AtInfinities (cdf · (fin m) (fin loc) (fin s)) (sf · (fin m) (fin loc) (fin s)) := by
  refine ⟨cdf_pinf hm hs, sf_pinf hm hs, fun h => ?_⟩
  have h2 : cdf pinf (fin m) (fin loc) (fin s) = .ok 1 := h.2.1
  rw [cdf_pinf hm hs] at h2
  cases h2

/-- Non-vacuity -/
example : (0:ℝ) < 3 / 4 ∧ (0:ℝ) < 1 / 2 ^ 49 := by norm_num

end Mpsci.invgauss
