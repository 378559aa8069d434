import Verif.Lemmas.Dist.InvGamma

/-! Properties of `invgamma`. -/

namespace Mpsci.invgamma

open Classical Num Spec common Filter Topology Set invgammaD

variable {a loc s eps : ℝ}

/-- C01 -/
theorem complementary (ha : 0 < a) (hs : 0 < s) :
    Complementary (cdf · (fin a) (fin loc) (fin s)) (sf · (fin a) (fin loc) (fin s)) := complementary_of (cdf_eval ha hs) (sf_eval ha hs)

/-- C02 -/
theorem isCdf (ha : 0 < a) (hs : 0 < s) : IsCdf (cdf · (fin a) (fin loc) (fin s)) := (isDist ha hs).isCdf (cdf_eval ha hs)

/-- C03 -/
theorem isDensity (ha : 0 < a) (hs : 0 < s) :
    IsDensity ∅ (Ioi loc) (pdf · (fin a) (fin loc) (fin s)) (cdf · (fin a) (fin loc) (fin s)) :=
  (isDist ha hs).isDensity (fun x _ => pdf_eval ha hs x) (cdf_eval ha hs) (f_zero ha hs)

/-- C04, C42 -/
theorem isLogOf (ha : 0 < a) (hs : 0 < s) : IsLogOf ∅ (pdf · (fin a) (fin loc) (fin s)) (logpdf · (fin a) (fin loc) (fin s)) :=
  isLogOf_of (P := Ioi loc) (g := fun x => f a ((x - loc) / s) / s) (fun _ _ hx => f_pos ha hs hx) (fun x _ hx => f_zero ha hs x hx)
    (fun x _ => pdf_eval ha hs x) (fun x _ hx => logpdf_pos ha hs hx) (fun x _ hx => logpdf_low ha hs (not_lt.1 hx))

/-- C05: for every tolerance `eps > 0` of the stopping test the iteration ends.  The value `y` returned lies between the mode `m` and
the exact quantile `r`, and `cdf(y)` differs from `p` by at most `eps * pdf(m) * max(1, |m|, |r|)`. -/
theorem inverts_cdf_newton (he : 0 < eps) (ha : 0 < a) (hs : 0 < s) {p : ℝ} (h0 : 0 < p) (h1 : p < 1) :
    ∃ m r y q d : ℝ, mode (fin a) (fin loc) (fin s) = .ok (fin m) ∧ loc < r ∧ cdf (fin r) (fin a) (fin loc) (fin s) = .ok (fin p) ∧
      pdf (fin m) (fin a) (fin loc) (fin s) = .ok (fin d) ∧ loc < y ∧ y ∈ uIcc m r ∧
      Reaches (fun fuel => invcdf eps fuel (fin p) (fin a) (fin loc) (fin s)) (fin y) ∧
      cdf (fin y) (fin a) (fin loc) (fin s) = .ok (fin q) ∧ |q - p| ≤ eps * d * max 1 (max |m| |r|) := by
  obtain ⟨y, hy, hu, ⟨N, hN⟩, hb⟩ := step_spec (loc := loc) ha hs he h0 h1 (step := cdfStep (fin p) (fin a) (fin loc) (fin s))
    fun x hx => by
      simp only [cdfStep, cdf_eval ha hs, pdf_eval ha hs, ok_bind, fin_sub, fin_div _ (f_pos ha hs hx).ne', fin_add, pure_eq_ok]
  refine ⟨_, _, y, _, _, mode_eval ha hs, lt_add_of_pos_right _ (mul_pos hs (Q_pos p)), (cdf_eval ha hs _).trans (by rw [F_Q ha hs p h0 h1]),
    pdf_eval ha hs _, hy, hu, ⟨N, fun fuel hf => ?_⟩, cdf_eval ha hs y, hb⟩
  simp only [invcdf, validate_ok ha hs, ok_bind, validateP_ok h0.le h1.le, zero_def, one_def, fin_eq, h0.ne', h1.ne, if_false,
    mode_eval ha hs]
  exact hN fuel hf

/-- C05: the same for `invsf`. -/
theorem inverts_sf_newton (he : 0 < eps) (ha : 0 < a) (hs : 0 < s) {p : ℝ} (h0 : 0 < p) (h1 : p < 1) :
    ∃ m r y q d : ℝ, mode (fin a) (fin loc) (fin s) = .ok (fin m) ∧ loc < r ∧ sf (fin r) (fin a) (fin loc) (fin s) = .ok (fin p) ∧
      pdf (fin m) (fin a) (fin loc) (fin s) = .ok (fin d) ∧ loc < y ∧ y ∈ uIcc m r ∧
      Reaches (fun fuel => invsf eps fuel (fin p) (fin a) (fin loc) (fin s)) (fin y) ∧
      sf (fin y) (fin a) (fin loc) (fin s) = .ok (fin q) ∧ |q - p| ≤ eps * d * max 1 (max |m| |r|) := by
  have h0' : 0 < 1 - p := by linarith
  have h1' : 1 - p < 1 := by linarith
  obtain ⟨y, hy, hu, ⟨N, hN⟩, hb⟩ := step_spec (loc := loc) ha hs he h0' h1' (step := sfStep (fin p) (fin a) (fin loc) (fin s))
    fun x hx => by
      simp only [sfStep, sf_eval ha hs, pdf_eval ha hs, ok_bind, fin_sub, fin_div _ (f_pos ha hs hx).ne', pure_eq_ok]
      congr 2; ring
  refine ⟨_, _, y, _, _, mode_eval ha hs, lt_add_of_pos_right _ (mul_pos hs (Q_pos (1 - p))),
    (sf_eval ha hs _).trans (by rw [F_Q ha hs _ h0' h1', sub_sub_cancel]),
    pdf_eval ha hs _, hy, hu, ⟨N, fun fuel hf => ?_⟩, sf_eval ha hs y, ?_⟩
  · simp only [invsf, validate_ok ha hs, ok_bind, validateP_ok h0.le h1.le, zero_def, one_def, fin_eq, h0.ne', h1.ne, if_false,
      mode_eval ha hs]
    exact hN fuel hf
  · refine le_trans (le_of_eq ?_) hb
    rw [abs_sub_comm]; congr 1; ring

/-- C06 -/
theorem rejects_p (ha : 0 < a) (hs : 0 < s) (fuel : ℕ) : RejectsBadP (invcdf eps fuel · (fin a) (fin loc) (fin s)) ∧
    RejectsBadP (invsf eps fuel · (fin a) (fin loc) (fin s)) := by
  constructor <;> intro p hp <;> simp [invcdf, invsf, validate_ok ha hs, validateP_bad hp]

/-- C07 -/
theorem validates (x : ℝ) :
    ValidatesExactly (0 < a ∧ 0 < s) (cdf (fin x) (fin a) (fin loc) (fin s)) ∧
    ValidatesExactly (0 < a ∧ 0 < s) (sf (fin x) (fin a) (fin loc) (fin s)) ∧
    ValidatesExactly (0 < a ∧ 0 < s) (pdf (fin x) (fin a) (fin loc) (fin s)) ∧
    ValidatesExactly (0 < a ∧ 0 < s) (logpdf (fin x) (fin a) (fin loc) (fin s)) ∧
    ValidatesExactly (0 < a ∧ 0 < s) (mode (fin a) (fin loc) (fin s)) := by
  refine ⟨⟨fun h => ⟨_, cdf_eval h.1 h.2 x⟩, fun h => ?_⟩, ⟨fun h => ⟨_, sf_eval h.1 h.2 x⟩, fun h => ?_⟩,
    ⟨fun h => pdf_returns h.1 h.2 x, fun h => ?_⟩, ⟨fun h => logpdf_returns h.1 h.2 x, fun h => ?_⟩,
    ⟨fun h => ⟨_, mode_eval h.1 h.2⟩, fun h => ?_⟩⟩ <;>
  simp [cdf, sf, pdf, logpdf, mode, validate_bad h]

/-- C07 -/
theorem validates_rest (h : ¬ (0 < a ∧ 0 < s)) (fuel : ℕ) (p : Num) (n : ℕ) :
    invcdf eps fuel p (fin a) (fin loc) (fin s) = .error .valueError ∧ invsf eps fuel p (fin a) (fin loc) (fin s) = .error .valueError ∧
    mean (fin a) (fin loc) (fin s) = .error .valueError ∧ var (fin a) (fin loc) (fin s) = .error .valueError ∧
    skewness (fin a) (fin loc) (fin s) = .error .valueError ∧ kurtosis (fin a) (fin loc) (fin s) = .error .valueError ∧
    entropy (fin a) (fin loc) (fin s) = .error .valueError ∧ support (fin a) (fin loc) (fin s) = .error .valueError ∧
    noncentralMoment n (fin a) (fin loc) (fin s) = .error .valueError := by
  have hv : validateMomentN (n : ℤ) = .ok n := by simp [validateMomentN]
  simp [invcdf, invsf, mean, var, skewness, kurtosis, entropy, support, noncentralMoment, hv, validate_bad h]

/-- C08 -/
theorem locScale (ha : 0 < a) : LocScaleInvariant (fun x loc s => cdf x (fin a) loc s) ∧
    LocScaleInvariant (fun x loc s => sf x (fin a) loc s) ∧ LocScaleDensity (fun x loc s => pdf x (fin a) loc s) :=
  ⟨locScale_of_std fun x _ _ hs => cdf_eval ha hs x,
   locScale_of_std (G := fun z => 1 - F a z) fun x _ _ hs => sf_eval ha hs x,
   locScaleDensity_of_std fun x _ _ hs => pdf_eval ha hs x⟩

/-- C09 -/
theorem isMode (ha : 0 < a) (hs : 0 < s) :
    IsMode ∅ (pdf · (fin a) (fin loc) (fin s)) (mode (fin a) (fin loc) (fin s)) := by
  refine isMode_of (mode_eval ha hs) (fun x _ => pdf_eval ha hs x) (by simp) (fun y _ => ?_)
  rw [add_sub_cancel_left, mul_div_cancel_left₀ _ hs.ne']
  exact div_le_div_of_nonneg_right (invgammaD.f_le ha _) hs.le

/-- C37 -/
theorem isMean (ha : 1 < a) (hs : 0 < s) : IsMean ∅ (pdf · (fin a) (fin loc) (fin s)) (mean (fin a) (fin loc) (fin s)) := by
  have h0 : 0 < a := by linarith
  have h := (Int01.const loc).add ((Y1 ha).mul s)
  have := isMoment_of_int01 (n := 1) (pdf := (pdf · (fin a) (fin loc) (fin s))) finite_empty (fun x _ => pdf_eval h0 hs x) (isDist h0 hs) (F_Q (loc := loc) h0 hs)
    (by simpa only [pow_one] using h) (mean_eval ha hs)
  obtain ⟨hE, g, m, h1, h2, h3, h4⟩ := this
  simp only [pow_one] at h3 h4
  exact ⟨hE, g, m, h1, h2, h3, h4⟩

/-- C37: `mean` returns nan only where there is no mean. -/
theorem mean_nan (h0 : 0 < a) (ha : a ≤ 1) (hs : 0 < s) : mean (fin a) (fin loc) (fin s) = .ok nan ∧
    ¬ ∃ r, IsMean ∅ (pdf · (fin a) (fin loc) (fin s)) r :=
  ⟨by simp [mean, validate_ok h0 hs, ha.not_gt], not_isMean_aff hs.ne' (fun x _ => pdf_eval h0 hs x) (isDist h0 hs) (F_Q h0 hs)
    (not_int h0 1 (by simpa using ha))⟩

/-- C37 -/
theorem isVar (ha : 2 < a) (hs : 0 < s) : IsVar ∅ (pdf · (fin a) (fin loc) (fin s)) (var (fin a) (fin loc) (fin s)) :=
  (hasMV ha hs).isVar finite_empty (fun x _ => pdf_eval (by linarith) hs x) (var_eval ha hs)

/-- C37: `var` returns nan only where there is no variance. -/
theorem var_nan (h0 : 0 < a) (ha : a ≤ 2) (hs : 0 < s) : var (fin a) (fin loc) (fin s) = .ok nan ∧
    ¬ ∃ r, IsVar ∅ (pdf · (fin a) (fin loc) (fin s)) r :=
  ⟨by simp only [var, validate_ok h0 hs, ok_bind, ofNat_def, fin_lt, ha.not_gt, if_false, pure_eq_ok],
    not_isVar_aff hs.ne' (fun x _ => pdf_eval h0 hs x) (isDist h0 hs) (F_Q h0 hs) (not_int h0 2 (by simpa using ha))⟩

/-- C37 -/
theorem isSkewness (ha : 3 < a) (hs : 0 < s) :
    IsSkewness ∅ (pdf · (fin a) (fin loc) (fin s)) (skewness (fin a) (fin loc) (fin s)) := by
  have h0 : 0 < a := by linarith
  have h1 : 0 < a - 1 := by linarith
  have h2 : 0 < a - 2 := by linarith
  have h3 : 0 < a - 3 := by linarith
  refine isSkewness_of finite_empty (fun x _ => pdf_eval h0 hs x) (isDist h0 hs) (fun x => div_nonneg (invgammaD.f_nonneg h0 _) hs.le)
    (F_Q h0 hs) (Y1 (by linarith)) (Y2 (by linarith)) (Y3 ha) fun hv => ?_
  have e : 1 / ((a - 1) * (a - 2)) - (1 / (a - 1)) ^ 2 = 1 / ((a - 1) ^ 2 * (a - 2)) := by field_simp; ring
  have e2 : (s ^ 2 * (1 / ((a - 1) ^ 2 * (a - 2)))) ^ (3 / 2 : ℝ) = s ^ 3 * (1 / ((a - 1) ^ 3 * (√(a - 2)) ^ 3)) := by
    rw [show (3 / 2 : ℝ) = (1 / 2) * (3:ℕ) by norm_num, Real.rpow_mul (by positivity), Real.rpow_natCast, ← Real.sqrt_eq_rpow,
      Real.sqrt_mul (by positivity), Real.sqrt_sq hs.le, Real.sqrt_div zero_le_one, Real.sqrt_one, Real.sqrt_mul (by positivity),
      Real.sqrt_sq h1.le, mul_pow, div_pow, one_pow, mul_pow]
  have hq := Real.sqrt_pos.2 h2
  have hq2 := Real.sq_sqrt h2.le
  simp only [skewness, validate_ok h0 hs, ok_bind, ofNat_def, fin_lt, ha, if_true, fin_sub, mp.sqrt_nonneg h2.le, fin_mul,
    fin_div _ h3.ne']
  congr 2
  rw [e, e2]
  have e3 : (√(a - 2)) ^ 3 = (a - 2) * √(a - 2) := by rw [pow_succ, hq2]
  rw [e3]
  field_simp
  ring

/-- C37: `skewness` returns nan only where it does not exist. -/
theorem skewness_nan (h0 : 0 < a) (ha : a ≤ 3) (hs : 0 < s) : skewness (fin a) (fin loc) (fin s) = .ok nan ∧
    ¬ ∃ r, IsSkewness ∅ (pdf · (fin a) (fin loc) (fin s)) r :=
  ⟨by simp only [skewness, validate_ok h0 hs, ok_bind, ofNat_def, fin_lt, ha.not_gt, if_false, pure_eq_ok],
    not_isSkewness_aff hs.ne' (fun x _ => pdf_eval h0 hs x) (isDist h0 hs) (F_Q h0 hs) (not_int h0 3 (by simpa using ha))⟩

/-- C37 -/
theorem isKurtosis (ha : 4 < a) (hs : 0 < s) :
    IsKurtosis ∅ (pdf · (fin a) (fin loc) (fin s)) (kurtosis (fin a) (fin loc) (fin s)) := by
  have h0 : 0 < a := by linarith
  have h1 : 0 < a - 1 := by linarith
  have h2 : 0 < a - 2 := by linarith
  have h3 : 0 < a - 3 := by linarith
  have h4 : 0 < a - 4 := by linarith
  refine isKurtosis_of finite_empty (fun x _ => pdf_eval h0 hs x) (isDist h0 hs) (fun x => div_nonneg (invgammaD.f_nonneg h0 _) hs.le)
    (F_Q h0 hs) (Y1 (by linarith)) (Y2 (by linarith)) (Y3 (by linarith)) (Y4 ha) fun _ hv => ?_
  have e : 1 / ((a - 1) * (a - 2)) - (1 / (a - 1)) ^ 2 = 1 / ((a - 1) ^ 2 * (a - 2)) := by field_simp; ring
  simp only [kurtosis, validate_ok h0 hs, ok_bind, ofNat_def, fin_lt, ha, if_true, fin_sub, fin_mul, fin_div _ h3.ne', fin_div _ h4.ne']
  congr 2
  rw [e]
  field_simp
  ring

/-- C37: `kurtosis` returns nan only where it does not exist. -/
theorem kurtosis_nan (h0 : 0 < a) (ha : a ≤ 4) (hs : 0 < s) : kurtosis (fin a) (fin loc) (fin s) = .ok nan ∧
    ¬ ∃ r, IsKurtosis ∅ (pdf · (fin a) (fin loc) (fin s)) r :=
  ⟨by simp only [kurtosis, validate_ok h0 hs, ok_bind, ofNat_def, fin_lt, ha.not_gt, if_false, pure_eq_ok],
    not_isKurtosis_aff hs.ne' (fun x _ => pdf_eval h0 hs x) (isDist h0 hs) (F_Q h0 hs) (not_int h0 4 (by simpa using ha))⟩

/-- C37 -/
theorem isEntropy (ha : 0 < a) (hs : 0 < s) : IsEntropy ∅ (pdf · (fin a) (fin loc) (fin s)) (entropy (fin a) (fin loc) (fin s)) := by
  refine ((hasEnt ha).affine loc hs (invgammaD.f_nonneg ha)).isEntropy finite_empty (fun x _ => pdf_eval ha hs x) ?_
  simp only [entropy, validate_ok ha hs, ok_bind, one_def, mp.digamma_pos ha, mp.loggamma_pos ha, mp.log_pos hs, fin_sub, fin_mul, fin_add,
    pure_eq_ok]
  congr 2; ring

/-- C37, C50: the moment of every order `n < a`. -/
theorem isMoment (ha : 0 < a) (n : ℕ) (hn : n < a) (hs : 0 < s) :
    IsMoment ∅ (pdf · (fin a) (fin loc) (fin s)) n (noncentralMoment n (fin a) (fin loc) (fin s)) := by
  have lt : ∀ j ∈ Finset.range (n + 1), (j:ℝ) < a := fun j hj =>
    lt_of_le_of_lt (by exact_mod_cast Nat.lt_succ_iff.1 (Finset.mem_range.1 hj)) hn
  have hi : Int01 (fun p => (loc + s * Q a p) ^ n)
      (∑ j ∈ Finset.range (n + 1), (n.choose j : ℝ) * loc ^ (n - j) * s ^ j * SM a j) := by
    have := Int01.sum (Finset.range (n + 1)) fun j hj => (Yn ha j (lt j hj)).mul ((n.choose j : ℝ) * loc ^ (n - j) * s ^ j)
    refine this.congr fun p _ _ => ?_
    rw [add_comm, add_pow]
    exact Finset.sum_congr rfl fun j _ => by rw [mul_pow]; ring
  refine isMoment_of_int01 finite_empty (fun x _ => pdf_eval ha hs x) (isDist ha hs) (F_Q ha hs) hi ?_
  have hv : validateMomentN (n : ℤ) = .ok n := by simp [validateMomentN]
  simp only [noncentralMoment, hv, validate_ok ha hs, ok_bind]
  rcases Nat.eq_zero_or_pos n with rfl | h0
  · simp [SM, (gammaD.Gpos ha).ne']
  · have h1 : ∀ j ∈ List.range (n + 1),
        (do return (← mp.binomial n j) * mp.ipow (fin loc) (n - j) * mp.ipow (fin s) j *
          (← standardNoncentralMoment j (fin a)) : M Num) =
          .ok (fin ((n.choose j : ℝ) * loc ^ (n - j) * s ^ j * SM a j)) := by
      intro j hj
      simp only [mp.binomial_nat, ok_bind, fin_mul, mp.ipow_fin, snm_eval ha (lt j (by simpa using hj)), pure_eq_ok]
    simp only [h0.ne', if_false]
    rw [mapM_ok _ h1]
    simp only [ok_bind, mp.fsum_map_fin, pure_eq_ok]
    rw [← List.sum_toFinset _ List.nodup_range, List.toFinset_range]

/-- C37, C50: for `n ≥ a` the moment does not exist and `noncentral_moment` returns nan. -/
theorem moment_nan (ha : 0 < a) (n : ℕ) (hn : a ≤ n) (hs : 0 < s) : noncentralMoment n (fin a) (fin loc) (fin s) = .ok nan ∧
    ¬ ∃ r, IsMoment ∅ (pdf · (fin a) (fin loc) (fin s)) n r := by
  refine ⟨?_, not_isMoment_aff hs.ne' (fun x _ => pdf_eval ha hs x) (isDist ha hs) (F_Q ha hs) (not_int ha n hn)⟩
  have hv : validateMomentN (n : ℤ) = .ok n := by simp [validateMomentN]
  have h0 : n ≠ 0 := by rintro rfl; simp at hn; linarith
  have h1 : ∀ j ∈ List.range (n + 1),
      (do return (← mp.binomial n j) * mp.ipow (fin loc) (n - j) * mp.ipow (fin s) j *
        (← standardNoncentralMoment j (fin a)) : M Num) =
        .ok (if (j:ℝ) < a then fin ((n.choose j : ℝ) * loc ^ (n - j) * s ^ j * SM a j) else nan) := by
    intro j _
    split_ifs with h
    · simp only [mp.binomial_nat, ok_bind, fin_mul, mp.ipow_fin, snm_eval ha h, pure_eq_ok]
    · simp only [mp.binomial_nat, ok_bind, fin_mul, mp.ipow_fin, snm_nan ha (not_lt.1 h), pure_eq_ok]; rfl
  simp only [noncentralMoment, hv, validate_ok ha hs, ok_bind, h0, if_false]
  rw [mapM_ok _ h1]
  simp only [ok_bind, pure_eq_ok]
  congr 1
  refine fsum_nan (List.mem_map.2 ⟨n, by simp, ?_⟩)
  rw [if_neg (not_lt.2 hn)]

/-- C50 -/
theorem moment_rejects {n : ℤ} (hn : n < 0) : noncentralMoment n (fin a) (fin loc) (fin s) = .error .valueError := by
  simp [noncentralMoment, validateMomentN, hn]

/-- C41 -/
theorem endPoints (ha : 0 < a) (hs : 0 < s) (fuel : ℕ) :
    EndPoints (invcdf eps fuel · (fin a) (fin loc) (fin s)) (fin loc) pinf ∧
    EndPoints (invsf eps fuel · (fin a) (fin loc) (fin s)) pinf (fin loc) := by
  refine ⟨⟨?_, ?_⟩, ?_, ?_⟩ <;> simp [invcdf, invsf, validateP_ok, validate_ok ha hs]

/-- C41 -/
theorem support_spec (ha : 0 < a) (hs : 0 < s) : support (fin a) (fin loc) (fin s) = .ok (fin loc, pinf) := by
  simp [support, validate_ok ha hs]

/-- C48 -/
theorem atInfinities (ha : 0 < a) (hs : 0 < s) : AtInfinities (cdf · (fin a) (fin loc) (fin s)) (sf · (fin a) (fin loc) (fin s)) :=
  ⟨by simp [cdf, validate_ok ha hs], cdf_pinf ha hs, by simp [sf, validate_ok ha hs], sf_pinf ha hs⟩

/-- Non-vacuity -/
example : (0:ℝ) < 3 / 4 ∧ (3 / 4 : ℝ) ≤ 1 ∧ (4:ℝ) < 9 / 2 ∧ (0:ℝ) < 1 / 2 ^ 49 ∧ ((2:ℕ):ℝ) < 9 / 2 := by norm_num

end Mpsci.invgamma
