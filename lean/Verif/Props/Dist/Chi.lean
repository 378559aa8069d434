import Verif.Lemmas.Dist.Chi

/-! Properties of `chi`. -/

namespace Mpsci.chi

open Classical Num Spec common Filter Topology Set

variable {k : ℝ} {E : Set ℝ}

/-- C01 -/
theorem complementary (hk : 0 < k) : Complementary (cdf · (fin k)) (sf · (fin k)) :=
  complementary_of (cdf_eval hk) (sf_eval hk)

/-- C02 -/
theorem isCdf (hk : 0 < k) : IsCdf (cdf · (fin k)) := (isDist hk).isCdf (cdf_eval hk)

/-- for `k ≤ 1` the density at 0 is not a number (`pdf_at_zero`) -/
theorem pdf_off (hk : 0 < k) (hE : k ≤ 1 → (0:ℝ) ∈ E) : RealFnOff E (pdf · (fin k)) (f k) := fun x hx =>
  pdf_eval hk x (by
    by_cases h : k ≤ 1
    · exact Or.inr fun h0 => hx (h0 ▸ hE h)
    · exact Or.inl (not_le.1 h))

/-- C03: at 0 only for `k > 1` -/
theorem isDensity (hk : 0 < k) (hF : E.Finite) (hE : k ≤ 1 → (0:ℝ) ∈ E) : IsDensity E (Ioi 0) (pdf · (fin k)) (cdf · (fin k)) :=
  (isDist hk).isDensity (pdf_off hk hE) (cdf_eval hk) (fun _ hx => f_nonpos (not_lt.1 hx))

/-- C03: for `k < 1` the density at 0 is reported as infinite -/
theorem pdf_at_zero (hk : 0 < k) (h : k < 1) : pdf (fin 0) (fin k) = .ok pinf := by
  rw [pdf_zero hk h.le, if_neg h.ne]

/-- C03, C42 fail at 0 for `k = 1`: the density is continuous there with the value √(2/π), but nan is returned. -/
theorem pdf_zero_fails : pdf (fin 0) (fin 1) = .ok nan ∧ logpdf (fin 0) (fin 1) = .ok nan ∧
    (∀ x : ℝ, 0 < x → ∃ y, pdf (fin x) (fin 1) = .ok (fin y) ∧ y = √(2 / Real.pi) * Real.exp (-(x ^ 2 / 2))) := by
  refine ⟨by simp [pdf_zero one_pos], by simp [logpdf_zero one_pos], fun x hx => ⟨_, pdf_eval one_pos x (Or.inr hx.ne'), ?_⟩⟩
  rw [f, nakD.f_eq one_half_pos hx, Real.Gamma_one_half_eq, ← Real.sqrt_eq_rpow, Real.sqrt_div zero_le_one, Real.sqrt_one,
    Real.sqrt_div zero_le_two, mul_one_div_cancel two_ne_zero, sub_self, Real.rpow_zero, one_div_mul_eq_div]
  have h2 : √2 * √2 = 2 := Real.mul_self_sqrt zero_le_two
  have h3 : 0 < √2 := Real.sqrt_pos.2 two_pos
  have : (2:ℝ) * (1 / √2) = √2 := by rw [mul_one_div, div_eq_iff h3.ne', h2]
  rw [this]; ring

/-- C04, C42: everywhere for `k > 1`; except at 0 for `k ≤ 1` (see `pdf_zero_fails`) -/
theorem isLogOf (hk : 0 < k) (hE : k ≤ 1 → (0:ℝ) ∈ E) : IsLogOf E (pdf · (fin k)) (logpdf · (fin k)) := by
  refine isLogOf_of (P := Ioi 0) (g := f k) (fun _ _ hx => f_pos hk hx) (fun x _ hx' => f_nonpos (not_lt.1 hx'))
    (fun x hx => pdf_off hk hE x hx) (fun x _ hx => logpdf_pos hk hx) (fun x hx hx' => ?_)
  rcases (show x ≤ 0 from not_lt.1 hx').eq_or_lt with h | h
  · rw [h] at hx ⊢
    have h1 : 1 < k := not_le.1 fun h => hx (hE h)
    simp only [logpdf_zero hk, h1, if_true]
  · exact logpdf_neg hk h

/-- C07 -/
theorem validates (x : ℝ) :
    ValidatesExactly (0 < k) (cdf (fin x) (fin k)) ∧ ValidatesExactly (0 < k) (sf (fin x) (fin k)) ∧
    ValidatesExactly (0 < k) (pdf (fin x) (fin k)) ∧ ValidatesExactly (0 < k) (logpdf (fin x) (fin k)) := by
  refine ⟨⟨fun h => ⟨_, cdf_eval h x⟩, fun h => ?_⟩, ⟨fun h => ⟨_, sf_eval h x⟩, fun h => ?_⟩,
    ⟨fun h => ?_, fun h => ?_⟩, ⟨fun h => ?_, fun h => ?_⟩⟩
  case refine_3 =>
    by_cases hx : x = 0
    · by_cases h1 : 1 < k
      · exact ⟨_, pdf_eval h x (Or.inl h1)⟩
      · exact ⟨_, hx ▸ pdf_zero h (not_lt.1 h1)⟩
    · exact ⟨_, pdf_eval h x (Or.inr hx)⟩
  case refine_5 =>
    rcases lt_trichotomy x 0 with h' | rfl | h'
    · exact ⟨_, logpdf_neg h h'⟩
    · exact ⟨_, logpdf_zero h⟩
    · exact ⟨_, logpdf_pos h h'⟩
  all_goals simp [cdf, sf, pdf, logpdf, validate_bad h]

/-- C07 -/
theorem validates_moments : ValidatesExactly (0 < k) (mean (fin k)) ∧ ValidatesExactly (0 < k) (var (fin k)) ∧
    ValidatesExactly (0 < k) (mode (fin k)) := by
  refine ⟨⟨fun h => ⟨_, mean_eval h⟩, fun h => ?_⟩, ⟨fun h => ?_, fun h => ?_⟩, ⟨fun h => ?_, fun h => ?_⟩⟩
  case refine_2 => exact ⟨_, by simp only [var, validate_ok h, ok_bind, mean_eval h]; rfl⟩
  case refine_4 =>
    by_cases h1 : k < 1
    · exact ⟨0, by simp [mode, validate_ok h, h1]⟩
    · exact ⟨_, mode_eval (not_lt.1 h1)⟩
  all_goals simp [mean, var, mode, validate_bad h]

/-- C09 -/
theorem isMode (hk : 1 < k) : IsMode ∅ (pdf · (fin k)) (mode (fin k)) :=
  isMode_of (mode_eval hk.le) (fun x _ => pdf_eval (by linarith) x (Or.inl hk)) (by simp) (fun y _ => f_le hk y)

/-- C09: for `k ≤ 1` `mode` is 0 and the density decreases from there. -/
theorem mode_decreasing (h0 : 0 < k) (hk : k ≤ 1) : mode (fin k) = .ok 0 ∧
    ∀ x y : ℝ, 0 < x → x < y → ∃ a b : ℝ, pdf (fin x) (fin k) = .ok (fin a) ∧ pdf (fin y) (fin k) = .ok (fin b) ∧ b < a := by
  refine ⟨?_, fun x y hx hxy => ⟨_, _, pdf_eval h0 x (Or.inr hx.ne'), pdf_eval h0 y (Or.inr (hx.trans hxy).ne'), f_anti h0 hk hx hxy⟩⟩
  rcases hk.eq_or_lt with rfl | hk
  · rw [mode_eval le_rfl]; simp
  · simp [mode, validate_ok h0, hk]

/-- C37 -/
theorem isMean (hk : 0 < k) (hF : E.Finite) (hE : k ≤ 1 → (0:ℝ) ∈ E) : IsMean E (pdf · (fin k)) (mean (fin k)) :=
  (hasMV hk).isMean hF (pdf_off hk hE) (mean_eval hk)

/-- C37 -/
theorem isVar (hk : 0 < k) (hF : E.Finite) (hE : k ≤ 1 → (0:ℝ) ∈ E) : IsVar E (pdf · (fin k)) (var (fin k)) :=
  (hasMV hk).isVar hF (pdf_off hk hE) (by simp [var, validate_ok hk, mean_eval hk])

/-- C37 -/
theorem isEntropy (hk : 0 < k) (hF : E.Finite) (hE : k ≤ 1 → (0:ℝ) ∈ E) : IsEntropy E (pdf · (fin k)) (entropy (fin k)) := by
  refine (hasEnt hk).isEntropy hF (pdf_off hk hE) ?_
  simp only [entropy, validate_ok hk, ok_bind, ofNat_def, one_def, fin_div _ two_ne_zero, mp.loggamma_pos (half_pos hk),
    mp.log_pos two_pos, mp.psi0_pos (half_pos hk), fin_sub, fin_mul, fin_add, pure_eq_ok]

/-- C37, C50 -/
theorem isMoment (hk : 0 < k) (hF : E.Finite) (hE : k ≤ 1 → (0:ℝ) ∈ E) (n : ℕ) :
    IsMoment E (pdf · (fin k)) n (noncentralMoment n (fin k)) := by
  refine isMoment_of_int01 hF (pdf_off hk hE) (isDist hk) (F_Q hk) (Yn hk n) ?_
  have hv : validateMomentN (n : ℤ) = .ok n := by simp [validateMomentN]
  have hg := (gammaD.Gpos (half_pos hk)).ne'
  by_cases h : n = 0
  · subst h
    simp only [noncentralMoment, hv, validate_ok hk, ok_bind, if_true, Nat.cast_zero, zero_div, Real.rpow_zero, zero_add, div_self hg, one_mul]; rfl
  · simp only [noncentralMoment, hv, ok_bind, validate_ok hk, h, if_false, ofNat_def, mp.power_pos two_pos, fin_add, fin_div _ two_ne_zero,
      mp.gammaprod_pos (show 0 < ((n:ℝ) + k) / 2 by positivity) (half_pos hk), fin_mul, pure_eq_ok]

/-- C50 -/
theorem moment_negative (n : ℤ) (h : n < 0) (k : Num) : noncentralMoment n k = .error .valueError := by
  simp [noncentralMoment, validateMomentN, h]

/-- C50 -/
theorem moments_agree (hk : 0 < k) : ∃ m v m2 : ℝ, mean (fin k) = .ok (fin m) ∧ noncentralMoment 1 (fin k) = .ok (fin m) ∧
    var (fin k) = .ok (fin v) ∧ noncentralMoment 2 (fin k) = .ok (fin m2) ∧ v = m2 - m ^ 2 ∧ noncentralMoment 0 (fin k) = .ok 1 := by
  have hg := (gammaD.Gpos (half_pos hk)).ne'
  have h1 : validateMomentN 1 = .ok 1 := rfl
  have h2 : validateMomentN 2 = .ok 2 := rfl
  have h3 : validateMomentN 0 = .ok 0 := rfl
  refine ⟨mu k, k - mu k ^ 2, k, mean_eval hk, ?_, by simp [var, validate_ok hk, mean_eval hk],
    ?_, rfl, by simp [noncentralMoment, h3, validate_ok hk]⟩
  · simp only [noncentralMoment, h1, ok_bind, validate_ok hk, one_ne_zero, if_false, ofNat_def, mp.power_pos two_pos, fin_add,
      fin_div _ two_ne_zero, mp.gammaprod_pos (show 0 < (((1:ℕ):ℝ) + k) / 2 by positivity) (half_pos hk), fin_mul, pure_eq_ok]
    rw [Nat.cast_one, ← Real.sqrt_eq_rpow, mu, mul_div_assoc, add_comm k]
  · simp only [noncentralMoment, h2, ok_bind, validate_ok hk, two_ne_zero, if_false, ofNat_def, mp.power_pos two_pos, fin_add,
      fin_div _ two_ne_zero, mp.gammaprod_pos (show 0 < (((2:ℕ):ℝ) + k) / 2 by positivity) (half_pos hk), fin_mul, pure_eq_ok]
    rw [show (((2:ℕ):ℝ) + k) / 2 = k / 2 + 1 by push_cast; ring, Real.Gamma_add_one (half_pos hk).ne',
      show ((2:ℕ):ℝ) / 2 = 1 by norm_num, Real.rpow_one]
    congr 2; field_simp

/-- C41 -/
theorem support_spec (hk : 0 < k) : support (fin k) = .ok (0, pinf) := by simp [support, validate_ok hk]

/-- C48 -/
theorem atInfinities (hk : 0 < k) : AtInfinities (cdf · (fin k)) (sf · (fin k)) :=
  ⟨by simp [cdf, validate_ok hk], cdf_pinf hk, by simp [sf, validate_ok hk], sf_pinf hk⟩

/-- Non-vacuity: valid parameters, with a singular set that meets the hypotheses. -/
example : (0:ℝ) < 5 / 2 ∧ (1:ℝ) < 5 / 2 ∧ (∅ : Set ℝ).Finite ∧ ((5 / 2 : ℝ) ≤ 1 → (0:ℝ) ∈ (∅ : Set ℝ)) ∧ ({0} : Set ℝ).Finite :=
  ⟨by norm_num, by norm_num, finite_empty, fun h => by norm_num at h, finite_singleton _⟩

end Mpsci.chi
