import Verif.Lemmas.Dist.Gamma

/-! Properties of `gamma`. -/

namespace Mpsci.gamma

open Classical Num Spec common Filter Topology Set

variable {k s : ℝ} {E : Set ℝ} {findroot : (Num → M Num) → Num → Num → M Num}

/-- C01 -/
theorem complementary (hk : 0 < k) (hs : 0 < s) : Complementary (cdf · (fin k) (fin s)) (sf · (fin k) (fin s)) :=
  complementary_of (cdf_eval hk hs) (sf_eval hk hs)

/-- C02 -/
theorem isCdf (hk : 0 < k) (hs : 0 < s) : IsCdf (cdf · (fin k) (fin s)) := (isDist hk hs).isCdf (cdf_eval hk hs)

/-- for `k < 1` the density is infinite at 0 -/
theorem pdf_off (hk : 0 < k) (hs : 0 < s) (hE : k < 1 → (0:ℝ) ∈ E) :
    RealFnOff E (pdf · (fin k) (fin s)) (fun x => f k (x / s) / s) := fun x hx =>
  pdf_eval hk hs x (by
    by_cases h : k < 1
    · exact Or.inr fun h0 => hx (h0 ▸ hE h)
    · exact Or.inl (not_lt.1 h))

/-- C03: at 0 only for `k ≥ 1`, since the density is infinite there otherwise -/
theorem isDensity (hk : 0 < k) (hs : 0 < s) (hF : E.Finite) (hE : k < 1 → (0:ℝ) ∈ E) :
    IsDensity E (Ici 0) (pdf · (fin k) (fin s)) (cdf · (fin k) (fin s)) :=
  (isDist hk hs).isDensity (pdf_off hk hs hE) (cdf_eval hk hs) (f_zero hk hs)

/-- C03: for `k < 1` the density at 0 is reported as infinite, or as a division by zero -/
theorem pdf_at_zero (hk : 0 < k) (hs : 0 < s) (h : k < 1) : pdf (fin 0) (fin k) (fin s) = .error .zeroDivision ∨
    pdf (fin 0) (fin k) (fin s) = .ok pinf := pdf_zero hk hs h

/-- C04, C42: everywhere for `k > 1`; at 0 not for `k ≤ 1` (see `logpdf_zero_fails`) -/
theorem isLogOf (hk : 0 < k) (hs : 0 < s) (hE : k ≤ 1 → (0:ℝ) ∈ E) :
    IsLogOf E (pdf · (fin k) (fin s)) (logpdf · (fin k) (fin s)) := by
  refine isLogOf_of (P := Ioi 0) (g := fun x => f k (x / s) / s) (fun _ _ hx => div_pos (f_pos hk (div_pos hx hs)) hs)
    (fun x hx hx' => ?_) (fun x hx => pdf_off hk hs (fun h => hE h.le) x hx) (fun x _ hx => logpdf_pos hk hs hx)
    (fun x hx hx' => ?_)
  · rcases (show x ≤ 0 from not_lt.1 hx').eq_or_lt with h | h
    · rw [h] at hx ⊢
      have h1 : 1 < k := not_le.1 fun h => hx (hE h)
      rw [zero_div, f, gammaD.f_of_nonneg le_rfl, gammaD.g, Real.zero_rpow (by linarith)]; simp
    · exact f_zero hk hs x (not_le.2 h)
  · rcases (show x ≤ 0 from not_lt.1 hx').eq_or_lt with h | h
    · rw [h] at hx ⊢
      have h1 : 1 < k := not_le.1 fun h => hx (hE h)
      simp only [logpdf_zero hk hs, h1, if_true]
    · exact logpdf_neg hk hs h

/-- C42 fails for the exponential distribution (`k = 1`) at 0, where `pdf` is `1/scale` and `logpdf` returns nan. -/
theorem logpdf_zero_fails (hs : 0 < s) : pdf (fin 0) (fin 1) (fin s) = .ok (fin (1 / s)) ∧
    logpdf (fin 0) (fin 1) (fin s) = .ok nan := by
  constructor
  · rw [pdf_eval one_pos hs 0 (Or.inl le_rfl), zero_div, f, gammaD.f_of_nonneg le_rfl, gammaD.g]; simp
  · simp [logpdf_zero one_pos hs]

/-- C05: assuming that the secant method finds the root -/
theorem inverts_cdf (hr : SecantFinder findroot) (hk : 0 < k) (hs : 0 < s) :
    InvertsSearch (Ioi 0) (cdf · (fin k) (fin s)) (fun fuel p => invcdf findroot fuel p (fin k) (fin s)) := by
  refine invertsSearch_of (F := fun x => F k (x / s)) (fun x _ => cdf_eval hk hs x) (fun x hx => F_mem hk hs hx)
    (fun p h0 h1 => ⟨_, mul_pos hs (gammaD.Q_pos p), F_Q hk hs p h0 h1⟩) fun x hx => ?_
  obtain ⟨h0, h1⟩ := F_mem hk hs hx
  obtain ⟨N, h⟩ := bracketRoot_right hr (func := fun x => cdf x (fin k) (fin s)) (g := fun x => F k (x / s)) (a := 0) (T := x)
    (cdf_eval hk hs) (cdf_pinf hk hs) h1.ne (F_unique hk hs hx)
    (pass_up (isDist hk hs).mono (by simp [F, gammaD.F_nonpos])) (some 16)
  refine ⟨N, fun fuel hn => ?_⟩
  simp only [invcdf, validate_ok hk hs, ok_bind, validateP_ok h0.le h1.le, zero_def, one_def, fin_eq, h0.ne', h1.ne, if_false]
  exact h fuel hn

/-- C05: assuming that the secant method finds the root -/
theorem inverts_sf (hr : SecantFinder findroot) (hk : 0 < k) (hs : 0 < s) :
    InvertsSearch (Ioi 0) (sf · (fin k) (fin s)) (fun fuel p => invsf findroot fuel p (fin k) (fin s)) := by
  have hm : ∀ x ∈ Ioi (0:ℝ), 0 < 1 - F k (x / s) ∧ 1 - F k (x / s) < 1 := fun x hx => by
    obtain ⟨h0, h1⟩ := F_mem hk hs hx
    exact ⟨by linarith, by linarith⟩
  refine invertsSearch_of (F := fun x => 1 - F k (x / s)) (fun x _ => sf_eval hk hs x) hm
    (fun p h0 h1 => ⟨_, mul_pos hs (gammaD.Q_pos (1 - p)), by rw [F_Q hk hs (1 - p) (by linarith) (by linarith)]; ring⟩)
    fun x hx => ?_
  obtain ⟨h0, h1⟩ := hm x hx
  obtain ⟨N, h⟩ := bracketRoot_right hr (func := fun x => sf x (fin k) (fin s)) (g := fun x => 1 - F k (x / s)) (a := 0) (T := x)
    (sf_eval hk hs) (sf_pinf hk hs) h0.ne' (fun y h => F_unique hk hs hx y (by linarith))
    (pass_down (fun a b h => sub_le_sub_left ((isDist hk hs).mono h) 1) (by simp [F, gammaD.F_nonpos])) (some 16)
  refine ⟨N, fun fuel hn => ?_⟩
  simp only [invsf, validate_ok hk hs, ok_bind, validateP_ok h0.le h1.le, zero_def, one_def, fin_eq, h0.ne', h1.ne, if_false]
  exact h fuel hn

/-- C06 -/
theorem rejects_p (fuel : ℕ) : RejectsBadP (invcdf findroot fuel · (fin k) (fin s)) ∧
    RejectsBadP (invsf findroot fuel · (fin k) (fin s)) := by
  by_cases h : 0 < k ∧ 0 < s
  · constructor <;> intro p hp <;> simp [invcdf, invsf, validateP_bad hp, validate_ok h.1 h.2]
  · constructor <;> intro p hp <;> simp [invcdf, invsf, validateP_bad hp, validate_bad h]

/-- C41 -/
theorem endPoints (hk : 0 < k) (hs : 0 < s) (fuel : ℕ) : EndPoints (invcdf findroot fuel · (fin k) (fin s)) 0 pinf ∧
    EndPoints (invsf findroot fuel · (fin k) (fin s)) pinf 0 ∧ support (fin k) (fin s) = .ok (0, pinf) := by
  have h0 := validateP_ok (p := 0) le_rfl zero_le_one
  have h1 := validateP_ok (p := 1) zero_le_one le_rfl
  refine ⟨⟨?_, ?_⟩, ⟨?_, ?_⟩, ?_⟩ <;>
  simp [invcdf, invsf, support, validate_ok hk hs, h0, h1]

/-- C07 -/
theorem validates (x : ℝ) (hx : x ≠ 0) :
    ValidatesExactly (0 < k ∧ 0 < s) (cdf (fin x) (fin k) (fin s)) ∧
    ValidatesExactly (0 < k ∧ 0 < s) (sf (fin x) (fin k) (fin s)) ∧
    ValidatesExactly (0 < k ∧ 0 < s) (pdf (fin x) (fin k) (fin s)) ∧
    ValidatesExactly (0 < k ∧ 0 < s) (logpdf (fin x) (fin k) (fin s)) := by
  refine ⟨⟨fun h => ⟨_, cdf_eval h.1 h.2 x⟩, fun h => ?_⟩, ⟨fun h => ⟨_, sf_eval h.1 h.2 x⟩, fun h => ?_⟩,
    ⟨fun h => ⟨_, pdf_eval h.1 h.2 x (Or.inr hx)⟩, fun h => ?_⟩, ⟨fun h => ?_, fun h => ?_⟩⟩
  case refine_4 => 
    rcases lt_or_gt_of_ne hx with h' | h'
    · exact ⟨_, logpdf_neg h.1 h.2 h'⟩
    · exact ⟨_, logpdf_pos h.1 h.2 h'⟩
  all_goals simp [cdf, sf, pdf, logpdf, validate_bad h]

/-- C07 -/
theorem validates_moments : ValidatesExactly (0 < k ∧ 0 < s) (mean (fin k) (fin s)) ∧
    ValidatesExactly (0 < k ∧ 0 < s) (var (fin k) (fin s)) ∧ ValidatesExactly (0 < k ∧ 0 < s) (mode (fin k) (fin s)) := by
  refine ⟨⟨fun h => ?_, fun h => ?_⟩, ⟨fun h => ?_, fun h => ?_⟩, ⟨fun h => ?_, fun h => ?_⟩⟩
  case refine_1 => exact ⟨_, by simp only [mean, validate_ok h.1 h.2, ok_bind]; rfl⟩
  case refine_3 => exact ⟨_, by simp only [var, validate_ok h.1 h.2, ok_bind]; rfl⟩
  case refine_5 => 
    by_cases h1 : k ≤ 1
    · exact ⟨0, by simp [mode, validate_ok h.1 h.2, h1]⟩
    · exact ⟨_, mode_eval (not_le.1 h1).le h.2⟩
  all_goals simp [mean, var, mode, validate_bad h]

/-- C08 -/
theorem scale (hk : 0 < k) : ScaleInvariant (fun x s => cdf x (fin k) s) ∧ ScaleInvariant (fun x s => sf x (fin k) s) :=
  ⟨scale_of_std fun x _ hs => cdf_eval hk hs x,
   scale_of_std (G := fun z => 1 - F k z) fun x _ hs => sf_eval hk hs x⟩

/-- C08 -/
theorem scale_pdf (hk : 1 ≤ k) : ScaleDensity (fun x s => pdf x (fin k) s) :=
  scaleDensity_of_std fun x _ hs => pdf_eval (by linarith) hs x (Or.inl hk)

/-- C09 -/
theorem isMode (hk : 1 ≤ k) (hs : 0 < s) : IsMode ∅ (pdf · (fin k) (fin s)) (mode (fin k) (fin s)) := by
  have h0 : 0 < k := by linarith
  refine isMode_of (mode_eval hk hs) (fun x _ => pdf_eval h0 hs x (Or.inl hk)) (by simp) (fun y _ => ?_)
  rw [mul_div_cancel_left₀ _ hs.ne']
  exact div_le_div_of_nonneg_right (f_le hk _) hs.le

/-- C09: for `k < 1`, where the density is unbounded near 0, `mode` is 0 and the density decreases from there. -/
theorem mode_unbounded (h0 : 0 < k) (hk : k < 1) (hs : 0 < s) : mode (fin k) (fin s) = .ok 0 ∧
    ∀ x y : ℝ, 0 < x → x < y → ∃ a b : ℝ, pdf (fin x) (fin k) (fin s) = .ok (fin a) ∧ pdf (fin y) (fin k) (fin s) = .ok (fin b) ∧ b < a := by
  refine ⟨by simp [mode, validate_ok h0 hs, hk.le], fun x y hx hxy => ⟨_, _, pdf_eval h0 hs x (Or.inr hx.ne'),
    pdf_eval h0 hs y (Or.inr (hx.trans hxy).ne'), ?_⟩⟩
  have h1 := div_pos hx hs
  have h2 : x / s < y / s := div_lt_div_of_pos_right hxy hs
  rw [f, f, gammaD.f_of_nonneg h1.le, gammaD.f_of_nonneg (h1.trans h2).le]
  exact div_lt_div_of_pos_right (g_antitone h0 hk.le h1 h2) hs

/-- C37 -/
theorem isMean (hk : 0 < k) (hs : 0 < s) (hF : E.Finite) (hE : k < 1 → (0:ℝ) ∈ E) :
    IsMean E (pdf · (fin k) (fin s)) (mean (fin k) (fin s)) :=
  (hasMV hk hs).isMean hF (pdf_off hk hs hE) (by simp [mean, validate_ok hk hs])

/-- C37 -/
theorem isVar (hk : 0 < k) (hs : 0 < s) (hF : E.Finite) (hE : k < 1 → (0:ℝ) ∈ E) :
    IsVar E (pdf · (fin k) (fin s)) (var (fin k) (fin s)) :=
  (hasMV hk hs).isVar hF (pdf_off hk hs hE) (by simp [var, validate_ok hk hs])

/-- C37 -/
theorem isEntropy (hk : 0 < k) (hs : 0 < s) (hF : E.Finite) (hE : k < 1 → (0:ℝ) ∈ E) :
    IsEntropy E (pdf · (fin k) (fin s)) (entropy (fin k) (fin s)) := by
  refine ((hasEnt_std hk).scale hs (f_nonneg hk)).isEntropy hF (pdf_off hk hs hE) ?_
  simp only [entropy, validate_ok hk hs, ok_bind, mp.log_pos hs, mp.loggamma_pos hk, mp.psi0_pos hk, one_def, fin_sub,
    fin_mul, fin_add, pure_eq_ok]
  congr 2; ring

/-- C37 -/
theorem isSkewness (hk : 0 < k) (hs : 0 < s) (hF : E.Finite) (hE : k < 1 → (0:ℝ) ∈ E) :
    IsSkewness E (pdf · (fin k) (fin s)) (skewness (fin k) (fin s)) := by
  refine isSkewness_of hF (pdf_off hk hs hE) (isDist hk hs) (fun x => div_nonneg (f_nonneg hk _) hs.le) (quantile hk hs)
    (Y1 hk) (Y2 hk) (Y3 hk) fun _ => ?_
  have hq : 0 < √k := Real.sqrt_pos.2 hk
  have e : (s ^ 2 * (k * (k + 1) - k ^ 2)) ^ (3 / 2 : ℝ) = s ^ 3 * (k * √k) := by
    rw [show s ^ 2 * (k * (k + 1) - k ^ 2) = (s * √k) ^ 2 by rw [mul_pow, Real.sq_sqrt hk.le]; ring,
      ← Real.rpow_natCast _ 2, ← Real.rpow_mul (by positivity)]
    norm_num
    rw [mul_pow, pow_succ (√k) 2, Real.sq_sqrt hk.le]
  simp only [skewness, validate_ok hk hs, ok_bind, mp.sqrt_nonneg hk.le, ofNat_def, fin_div _ hq.ne', e]
  congr 2
  field_simp; ring

/-- C37 -/
theorem isKurtosis (hk : 0 < k) (hs : 0 < s) (hF : E.Finite) (hE : k < 1 → (0:ℝ) ∈ E) :
    IsKurtosis E (pdf · (fin k) (fin s)) (kurtosis (fin k) (fin s)) := by
  refine isKurtosis_of hF (pdf_off hk hs hE) (isDist hk hs) (fun x => div_nonneg (f_nonneg hk _) hs.le) (quantile hk hs)
    (Y1 hk) (Y2 hk) (Y3 hk) (Y4 hk) fun _ _ => ?_
  simp only [kurtosis, validate_ok hk hs, ok_bind, ofNat_def, fin_div _ hk.ne']
  congr 2
  rw [show k * (k + 1) - k ^ 2 = k by ring]
  field_simp; ring

/-- C37, C50 -/
theorem isMoment (hk : 0 < k) (hs : 0 < s) (hF : E.Finite) (hE : k < 1 → (0:ℝ) ∈ E) (n : ℕ) :
    IsMoment E (pdf · (fin k) (fin s)) n (noncentralMoment n (fin k) (fin s)) := by
  refine isMoment_of_int01 hF (pdf_off hk hs hE) (isDist hk hs) (Q := fun p => s * gammaD.Q k p) (F_Q hk hs)
    (v := s ^ n * (Real.Gamma (k + n) / Real.Gamma k)) ?_ ?_
  · exact ((Yn hk n).mul (s ^ n)).congr fun p _ _ => by simp only [mul_pow]
  · have hv : validateMomentN (n : ℤ) = .ok n := by simp [validateMomentN]
    by_cases h : n = 0
    · subst h
      simp only [noncentralMoment, hv, validate_ok hk hs, ok_bind, if_true, pow_zero, Nat.cast_zero, add_zero,
        div_self (gammaD.Gpos hk).ne', mul_one]; rfl
    · simp only [noncentralMoment, hv, ok_bind, validate_ok hk hs, h, if_false, mp.ipow_fin, fin_add,
        mp.gammaprod_pos (by positivity : 0 < k + n) hk, fin_mul, pure_eq_ok]

/-- C50 -/
theorem moment_negative (n : ℤ) (h : n < 0) (k s : Num) : noncentralMoment n k s = .error .valueError := by
  simp [noncentralMoment, validateMomentN, h]

/-- C50 -/
theorem moments_agree (hk : 0 < k) (hs : 0 < s) : ∃ m v m2 : ℝ, mean (fin k) (fin s) = .ok (fin m) ∧
    noncentralMoment 1 (fin k) (fin s) = .ok (fin m) ∧ var (fin k) (fin s) = .ok (fin v) ∧
    noncentralMoment 2 (fin k) (fin s) = .ok (fin m2) ∧ v = m2 - m ^ 2 ∧ noncentralMoment 0 (fin k) (fin s) = .ok 1 := by
  have hg := (gammaD.Gpos hk).ne'
  have h1 : validateMomentN 1 = .ok 1 := rfl
  have h2 : validateMomentN 2 = .ok 2 := rfl
  have h3 : validateMomentN 0 = .ok 0 := rfl
  refine ⟨k * s, k * s ^ 2, s ^ 2 * (k * (k + 1)), by simp [mean, validate_ok hk hs], ?_, by simp [var, validate_ok hk hs],
    ?_, by ring, by simp [noncentralMoment, h3, validate_ok hk hs]⟩
  · simp only [noncentralMoment, h1, ok_bind, validate_ok hk hs, one_ne_zero, if_false, mp.ipow_fin, fin_add,
      mp.gammaprod_pos (by positivity : 0 < k + ((1:ℕ):ℝ)) hk, fin_mul, pure_eq_ok]
    rw [Nat.cast_one, Real.Gamma_add_one hk.ne']
    congr 2; field_simp
  · simp only [noncentralMoment, h2, ok_bind, validate_ok hk hs, two_ne_zero, if_false, mp.ipow_fin, fin_add,
      mp.gammaprod_pos (by positivity : 0 < k + ((2:ℕ):ℝ)) hk, fin_mul, pure_eq_ok]
    rw [show k + ((2:ℕ):ℝ) = k + 1 + 1 by push_cast; ring, Real.Gamma_add_one (by positivity), Real.Gamma_add_one hk.ne']
    congr 2; field_simp

/-- C40: for intervals of nonnegative numbers -/
theorem intervalProb_spec (hk : 0 < k) (hs : 0 < s) {x y : ℝ} (hx : 0 ≤ x) (hxy : x ≤ y) : ∃ a b : ℝ,
    cdf (fin x) (fin k) (fin s) = .ok (fin a) ∧ cdf (fin y) (fin k) (fin s) = .ok (fin b) ∧
    intervalProb (fin x) (fin y) (fin k) (fin s) = .ok (fin (b - a)) := by
  have h1 := div_nonneg hx hs.le
  have h2 := div_nonneg (hx.trans hxy) hs.le
  refine ⟨_, _, cdf_eval hk hs x, cdf_eval hk hs y, ?_⟩
  simp only [intervalProb, validate_ok hk hs, ok_bind, gt_iff, fin_lt, hxy.not_gt, if_false, fin_div _ hs.ne',
    mp.gammaincReg_fin hk h1 h2, gammaD.gammaInt_sub hk h1 h2, F, gammaD.F_nonneg_arg h1, gammaD.F_nonneg_arg h2]

/-- C40 -/
theorem intervalProb_rejects {x y : ℝ} (h : y < x) : intervalProb (fin x) (fin y) (fin k) (fin s) = .error .valueError := by
  by_cases hv : 0 < k ∧ 0 < s
  · simp only [intervalProb, validate_ok hv.1 hv.2, ok_bind, gt_iff, fin_lt, h, if_true]; rfl
  · simp only [intervalProb, validate_bad hv]; rfl

/-- C40 fails for negative `x1`: the "probability" of `[-1, 1]` is e - 1/e for the standard exponential distribution. -/
theorem intervalProb_fails : intervalProb (fin (-1)) (fin 1) (fin 1) (fin 1) = .ok (fin (Real.exp 1 - Real.exp (-1))) ∧
    1 < Real.exp 1 - Real.exp (-1) := by
  constructor
  · have h : (0:ℝ) < 1 ∧ ((0:ℝ) ≤ -1 ∧ (0:ℝ) ≤ 1 ∨ ∃ n : ℕ, (1:ℝ) = n + 1) := ⟨one_pos, Or.inr ⟨0, by simp⟩⟩
    have e : gammaInt 1 (-1) 1 = Real.exp 1 - Real.exp (-1) := by
      simp only [gammaInt, sub_self, Real.rpow_zero, one_mul]
      rw [intervalIntegral.integral_comp_neg (fun x => Real.exp x), integral_exp, neg_neg]
    have h' : ¬ fin (-1) > fin 1 := by rw [gt_iff, fin_lt]; norm_num
    simp only [intervalProb, validate_ok one_pos one_pos, ok_bind, h', if_false, fin_div _ one_ne_zero, div_one,
      mp.gammaincReg, h, if_true, e, Real.Gamma_one]
    rfl
  · have h1 := Real.add_one_lt_exp (one_ne_zero)
    have h2 : Real.exp (-1) < 1 := Real.exp_lt_one_iff.2 (by norm_num)
    linarith

/-- C40 fails for negative `x1`: with a noninteger `k` a complex number is returned. -/
theorem intervalProb_complex (hk : 0 < k) (h : ¬ ∃ n : ℕ, k = n + 1) (hs : 0 < s) {x y : ℝ} (hx : x < 0) (hxy : x ≤ y) :
    intervalProb (fin x) (fin y) (fin k) (fin s) = .error .complexResult := by
  have h1 : ¬ (0 ≤ x / s) := not_le.2 (div_neg_of_neg_of_pos hx hs)
  simp only [intervalProb, validate_ok hk hs, ok_bind, gt_iff, fin_lt, hxy.not_gt, if_false, fin_div _ hs.ne',
    mp.gammaincReg, h1, false_and, h, or_self, and_false, hk, if_true]

/-- C48 -/
theorem atInfinities (hk : 0 < k) (hs : 0 < s) : AtInfinities (cdf · (fin k) (fin s)) (sf · (fin k) (fin s)) :=
  ⟨by simp [cdf, validate_ok hk hs], cdf_pinf hk hs, by simp [sf, validate_ok hk hs], sf_pinf hk hs⟩

/-- Non-vacuity: a valid parameter pair, and a root finder. -/
example : (∃ findroot, SecantFinder findroot) ∧ (0:ℝ) < 3 ∧ (0:ℝ) < 1 / 2 ∧ (1:ℝ) ≤ 3 :=
  ⟨exists_secantFinder, by norm_num, by norm_num, by norm_num⟩

end Mpsci.gamma
