import Verif.Lemmas.Dist.LogGamma
import Verif.Lemmas.Dist.Gamma

/-! Properties of `loggamma`. -/

namespace Mpsci.loggamma

open Classical Num Spec common Filter Topology Set loggammaD

variable {k s : ℝ} {findroot : (Num → M Num) → Num → Num → M Num}

/-- C01 -/
theorem complementary (hk : 0 < k) (hs : 0 < s) : Complementary (cdf · (fin k) (fin s)) (sf · (fin k) (fin s)) :=
  complementary_of (cdf_eval hk hs) (sf_eval hk hs)

/-- C02 -/
theorem isCdf (hk : 0 < k) (hs : 0 < s) : IsCdf (cdf · (fin k) (fin s)) := (isDist hk hs).isCdf (cdf_eval hk hs)

/-- C03 -/
theorem isDensity (hk : 0 < k) (hs : 0 < s) : IsDensity ∅ univ (pdf · (fin k) (fin s)) (cdf · (fin k) (fin s)) :=
  (isDist hk hs).isDensity (fun x _ => pdf_eval hk hs x) (cdf_eval hk hs) (by simp)

/-- C04, C42 -/
theorem isLogOf (hk : 0 < k) (hs : 0 < s) : IsLogOf ∅ (pdf · (fin k) (fin s)) (logpdf · (fin k) (fin s)) :=
  isLogOf_of (P := univ) (g := fun x => f k (x / s) / s) (fun x _ _ => f_pos hk hs x) (by simp)
    (fun x _ => pdf_eval hk hs x) (fun x _ _ => logpdf_eval hk hs x) (by simp)

/-- C05: assuming that the secant method finds the root -/
theorem inverts_cdf (hr : SecantFinder findroot) (hk : 0 < k) (hs : 0 < s) : InvertsSearch univ (cdf · (fin k) (fin s))
    (fun fuel p => invcdf findroot fuel p (fin k) (fin s)) := by
  refine invertsSearch_of (F := fun x => F k (x / s)) (fun x _ => cdf_eval hk hs x) (fun x _ => F_mem hk _)
    (fun p h0 h1 => ⟨_, trivial, F_Q hk hs p h0 h1⟩) fun x _ => ?_
  obtain ⟨h0, h1⟩ := F_mem hk (x / s)
  obtain ⟨N, h⟩ := (bracketRoot_of_bracket hr (cdf_eval hk hs) (fun y h => (F_strictMono hk hs).injective h) (bracket_cdf hk hs x)).2
  refine ⟨N, fun fuel hN => ?_⟩
  simp only [invcdf, validate_ok hk hs, ok_bind, validateP_ok h0.le h1.le, zero_def, one_def, fin_eq, h0.ne', h1.ne, if_false]
  exact h fuel hN

/-- C05: assuming that the secant method finds the root -/
theorem inverts_sf (hr : SecantFinder findroot) (hk : 0 < k) (hs : 0 < s) : InvertsSearch univ (sf · (fin k) (fin s))
    (fun fuel p => invsf findroot fuel p (fin k) (fin s)) := by
  have hm : ∀ x, 0 < 1 - F k (x / s) ∧ 1 - F k (x / s) < 1 := fun x => by
    obtain ⟨h0, h1⟩ := F_mem hk (x / s)
    exact ⟨by linarith, by linarith⟩
  refine invertsSearch_of (F := fun x => 1 - F k (x / s)) (fun x _ => sf_eval hk hs x) (fun x _ => hm x)
    (fun p h0 h1 => ⟨_, trivial, by rw [F_Q hk hs (1 - p) (by linarith) (by linarith)]; ring⟩) fun x _ => ?_
  obtain ⟨h0, h1⟩ := hm x
  obtain ⟨lo, hi, N, -, -, h⟩ := bracket_sf hk hs x
  refine ⟨N, fun fuel hN => ?_⟩
  obtain ⟨r, h4, h5⟩ := hr (fun t => do return (← sf t (fin k) (fin s)) - fin (1 - F k (x / s)))
    (fun t => 1 - F k (t / s) - (1 - F k (x / s))) lo (lo + 1 / 4)
    (fun t => by simp only [sf_eval hk hs, ok_bind, fin_sub, pure_eq_ok]) ⟨x, sub_self _⟩
  have hx : r = x := (F_strictMono hk hs).injective (show F k (r / s) = F k (x / s) by linarith)
  simp only [invsf, validate_ok hk hs, ok_bind, validateP_ok h0.le h1.le, zero_def, one_def, fin_eq, h0.ne', h1.ne, if_false,
    h fuel hN, fin_add, h4, hx]

/-- C06 -/
theorem rejects_p (fuel : ℕ) : RejectsBadP (invcdf findroot fuel · (fin k) (fin s)) ∧
    RejectsBadP (invsf findroot fuel · (fin k) (fin s)) := by
  constructor <;> intro p hp <;> simp [invcdf, invsf, validateP_bad hp]

/-- C07 -/
theorem validates (x : ℝ) :
    ValidatesExactly (0 < k ∧ 0 < s) (cdf (fin x) (fin k) (fin s)) ∧
    ValidatesExactly (0 < k ∧ 0 < s) (sf (fin x) (fin k) (fin s)) ∧
    ValidatesExactly (0 < k ∧ 0 < s) (pdf (fin x) (fin k) (fin s)) ∧
    ValidatesExactly (0 < k ∧ 0 < s) (logpdf (fin x) (fin k) (fin s)) ∧
    ValidatesExactly (0 < k ∧ 0 < s) (mode (fin k) (fin s)) ∧
    ValidatesExactly (0 < k ∧ 0 < s) (mean (fin k) (fin s)) ∧
    ValidatesExactly (0 < k ∧ 0 < s) (var (fin k) (fin s)) := by
  refine ⟨⟨fun h => ⟨_, cdf_eval h.1 h.2 x⟩, fun h => ?_⟩, ⟨fun h => ⟨_, sf_eval h.1 h.2 x⟩, fun h => ?_⟩,
    ⟨fun h => ⟨_, pdf_eval h.1 h.2 x⟩, fun h => ?_⟩, ⟨fun h => ⟨_, logpdf_eval h.1 h.2 x⟩, fun h => ?_⟩,
    ⟨fun h => ⟨_, mode_eval h.1 h.2⟩, fun h => ?_⟩, ⟨fun h => ⟨_, mean_eval h.1 h.2⟩, fun h => ?_⟩,
    ⟨fun h => ⟨_, var_eval h.1 h.2⟩, fun h => ?_⟩⟩ <;>
  simp [cdf, sf, pdf, logpdf, mode, mean, var, validate_bad h]

/-- C07 -/
theorem validates_rest (h : ¬ (0 < k ∧ 0 < s)) (fuel : ℕ) (p x y : ℝ) (h0 : 0 < p) (h1 : p < 1) :
    invcdf findroot fuel (fin p) (fin k) (fin s) = .error .valueError ∧ invsf findroot fuel (fin p) (fin k) (fin s) = .error .valueError ∧
    skewness (fin k) (fin s) = .error .valueError ∧ kurtosis (fin k) (fin s) = .error .valueError ∧
    support (fin k) (fin s) = .error .valueError ∧ intervalProb (fin x) (fin y) (fin k) (fin s) = .error .valueError := by
  have hp := validateP_ok h0.le h1.le
  refine ⟨?_, ?_, ?_, ?_, ?_, ?_⟩
  · simp [invcdf, hp, h0.ne', h1.ne, validate_bad h]
  · simp [invsf, hp, h0.ne', h1.ne, validate_bad h]
  · simp [skewness, validate_bad h]
  · simp [kurtosis, validate_bad h]
  · simp [support, validate_bad h]
  · by_cases hxy : y < x
    · simp only [intervalProb, gt_iff, fin_lt, hxy, if_true]; rfl
    · simp only [intervalProb, gt_iff, fin_lt, hxy, if_false, validate_bad h]; rfl

/-- C07 fails at the end points: `invcdf(0)`, `invcdf(1)`, `invsf(0)` and `invsf(1)` do not look at the parameters. -/
theorem endPoints_not_validated (fuel : ℕ) (k s : Num) : EndPoints (invcdf findroot fuel · k s) ninf pinf ∧
    EndPoints (invsf findroot fuel · k s) pinf ninf := by
  refine ⟨⟨?_, ?_⟩, ?_, ?_⟩ <;> simp [invcdf, invsf, validateP_ok]

/-- C08 -/
theorem scale (hk : 0 < k) : ScaleInvariant (fun x s => cdf x (fin k) s) ∧
    ScaleInvariant (fun x s => sf x (fin k) s) ∧ ScaleDensity (fun x s => pdf x (fin k) s) :=
  ⟨scale_of_std fun x _ hs => cdf_eval hk hs x,
   scale_of_std (G := fun z => 1 - F k z) fun x _ hs => sf_eval hk hs x,
   scaleDensity_of_std fun x _ hs => pdf_eval hk hs x⟩

/-- C09 -/
theorem isMode (hk : 0 < k) (hs : 0 < s) : IsMode ∅ (pdf · (fin k) (fin s)) (mode (fin k) (fin s)) := by
  refine isMode_of (mode_eval hk hs) (fun x _ => pdf_eval hk hs x) (by simp) (fun y _ => ?_)
  rw [mul_div_cancel_left₀ _ hs.ne']
  exact div_le_div_of_nonneg_right (loggammaD.f_le hk _) hs.le

/-- C12: if `X` has this distribution then `exp(X/theta)` has the gamma distribution. -/
theorem eq_gamma (hk : 0 < k) (hs : 0 < s) (x : ℝ) :
    cdf (fin x) (fin k) (fin s) = gamma.cdf (fin (Real.exp (x / s))) (fin k) (fin 1) ∧
    sf (fin x) (fin k) (fin s) = gamma.sf (fin (Real.exp (x / s))) (fin k) (fin 1) := by
  have h0 := Real.exp_pos (x / s)
  rw [cdf_eval hk hs, sf_eval hk hs, gamma.cdf_eval hk one_pos, gamma.sf_eval hk one_pos]
  simp only [gamma.F, div_one, gammaD.F_pos h0, F, and_self]

theorem hasMV (hk : 0 < k) (hs : 0 < s) : HasMV (fun x => f k (x / s) / s) (0 + s * psi k) (s ^ 2 * (LG 2 k / Real.Gamma k - psi k ^ 2)) :=
  hasMV_of_affine (isDist hk hs) (F_Q hk hs) (Y1 hk) (Yn hk 2)

/-- C37 -/
theorem isMean (hk : 0 < k) (hs : 0 < s) : IsMean ∅ (pdf · (fin k) (fin s)) (mean (fin k) (fin s)) :=
  (hasMV hk hs).isMean finite_empty (fun x _ => pdf_eval hk hs x) (by rw [mean_eval hk hs, zero_add])

/-- C37 -/
theorem isVar (hk : 0 < k) (hs : 0 < s) : IsVar ∅ (pdf · (fin k) (fin s)) (var (fin k) (fin s)) :=
  (hasMV hk hs).isVar finite_empty (fun x _ => pdf_eval hk hs x) (by rw [var_eval hk hs, psi1, gammaD.psi_eq hk])

/-- C37 -/
theorem isSkewness (hk : 0 < k) (hs : 0 < s) : IsSkewness ∅ (pdf · (fin k) (fin s)) (skewness (fin k) (fin s)) := by
  refine isSkewness_of finite_empty (fun x _ => pdf_eval hk hs x) (isDist hk hs) (fun x => (f_pos hk hs x).le)
    (F_Q hk hs) (Y1 hk) (Yn hk 2) (Yn hk 3) fun hv => ?_
  have h1 := psi1_pos hk
  have e : LG 2 k / Real.Gamma k - psi k ^ 2 = psi1 k := by rw [psi1, gammaD.psi_eq hk]
  have e2 : LG 3 k / Real.Gamma k - 3 * (LG 2 k / Real.Gamma k) * psi k + 2 * psi k ^ 3 = psi2 k := by rw [psi2, gammaD.psi_eq hk]
  have h3 : psi1 k ^ (3 / 2 : ℝ) ≠ 0 := (Real.rpow_pos_of_pos h1 _).ne'
  have e3 : (s ^ 2) ^ (3 / 2 : ℝ) = s ^ 3 := by
    rw [← Real.rpow_natCast, ← Real.rpow_mul hs.le, ← Real.rpow_natCast]; norm_num
  simp only [skewness, validate_ok hk hs, ok_bind, mp.psi_pos _ hk, iteratedDeriv_psi hk, iteratedDeriv_psi2 hk, mp.power_pos h1,
    fin_div _ h3]
  rw [e, e2, Real.mul_rpow (by positivity) h1.le, e3, mul_div_mul_left _ _ (by positivity)]

/-- C37 -/
theorem isKurtosis (hk : 0 < k) (hs : 0 < s) : IsKurtosis ∅ (pdf · (fin k) (fin s)) (kurtosis (fin k) (fin s)) := by
  refine isKurtosis_of finite_empty (fun x _ => pdf_eval hk hs x) (isDist hk hs) (fun x => (f_pos hk hs x).le)
    (F_Q hk hs) (Y1 hk) (Yn hk 2) (Yn hk 3) (Yn hk 4) fun _ hv => ?_
  have h1 := psi1_pos hk
  have e : psi1 k = LG 2 k / Real.Gamma k - psi k ^ 2 := by rw [psi1, gammaD.psi_eq hk]
  have e3 : psi3 k = LG 4 k / Real.Gamma k - 4 * (LG 3 k / Real.Gamma k) * psi k - 3 * (LG 2 k / Real.Gamma k) ^ 2 +
      12 * (LG 2 k / Real.Gamma k) * psi k ^ 2 - 6 * psi k ^ 4 := by rw [psi3, gammaD.psi_eq hk]
  simp only [kurtosis, validate_ok hk hs, ok_bind, mp.psi_pos _ hk, iteratedDeriv_psi hk, iteratedDeriv_psi3 hk, mp.ipow_fin,
    fin_div _ (pow_ne_zero 2 h1.ne')]
  rw [e3, e]
  congr 2
  rw [eq_sub_iff_add_eq, div_add' _ _ _ (pow_ne_zero 2 hv.ne')]
  congr 1; ring

/-- C40 -/
theorem intervalProb_spec (hk : 0 < k) (hs : 0 < s) {x y : ℝ} (hxy : x ≤ y) : ∃ a b : ℝ,
    cdf (fin x) (fin k) (fin s) = .ok (fin a) ∧ cdf (fin y) (fin k) (fin s) = .ok (fin b) ∧
    intervalProb (fin x) (fin y) (fin k) (fin s) = .ok (fin (b - a)) := by
  have h1 := (Real.exp_pos (x / s)).le
  have h2 := (Real.exp_pos (y / s)).le
  refine ⟨_, _, cdf_eval hk hs x, cdf_eval hk hs y, ?_⟩
  simp only [intervalProb, validate_ok hk hs, ok_bind, gt_iff, fin_lt, hxy.not_gt, if_false, fin_div _ hs.ne', mp.exp_fin,
    mp.gammaincReg_fin hk h1 h2, gammaD.gammaInt_sub hk h1 h2, F]

/-- C40 -/
theorem intervalProb_rejects {x y : ℝ} (h : y < x) (k s : Num) : intervalProb (fin x) (fin y) k s = .error .valueError := by
  simp only [intervalProb, gt_iff, fin_lt, h, if_true]; rfl

/-- C41 -/
theorem endPoints (fuel : ℕ) (k s : ℝ) : EndPoints (invcdf findroot fuel · (fin k) (fin s)) ninf pinf ∧
    EndPoints (invsf findroot fuel · (fin k) (fin s)) pinf ninf := endPoints_not_validated fuel _ _

/-- C41 -/
theorem support_spec (hk : 0 < k) (hs : 0 < s) : support (fin k) (fin s) = .ok (ninf, pinf) := by
  simp [support, validate_ok hk hs]

/-- C48 -/
theorem atInfinities (hk : 0 < k) (hs : 0 < s) : AtInfinities (cdf · (fin k) (fin s)) (sf · (fin k) (fin s)) :=
  ⟨cdf_ninf hk hs, cdf_pinf hk hs, sf_ninf hk hs, sf_pinf hk hs⟩

/-- Non-vacuity: a valid parameter pair, and a root finder. -/
example : (∃ findroot, SecantFinder findroot) ∧ (0:ℝ) < 3 ∧ (0:ℝ) < 1 / 2 := ⟨exists_secantFinder, by norm_num, by norm_num⟩

end Mpsci.loggamma
