import Verif.Lemmas.Dist.Chi2

/-! Properties of `chi2`. -/

namespace Mpsci.chi2

open Classical Num Spec common Filter Topology Set

variable {k : ℝ} {E : Set ℝ} {findroot : (Num → M Num) → Num → Num → M Num}

/-- C01 -/
theorem complementary (hk : 0 < k) : Complementary (cdf · (fin k)) (sf · (fin k)) := complementary_of (cdf_eval hk) (sf_eval hk)

/-- C02 -/
theorem isCdf (hk : 0 < k) : IsCdf (cdf · (fin k)) := (isDist hk).isCdf (cdf_eval hk)

/-- for `k < 2` the density is infinite at 0 -/
theorem pdf_off (hk : 0 < k) (hE : k < 2 → (0:ℝ) ∈ E) : RealFnOff E (pdf · (fin k)) (f k) := fun x hx =>
  pdf_eval hk x (by
    by_cases h : k < 2
    · exact Or.inr fun h0 => hx (h0 ▸ hE h)
    · exact Or.inl (not_lt.1 h))

/-- C03: at 0 only for `k ≥ 2`, since the density is infinite there otherwise -/
theorem isDensity (hk : 0 < k) (hF : E.Finite) (hE : k < 2 → (0:ℝ) ∈ E) : IsDensity E (Ici 0) (pdf · (fin k)) (cdf · (fin k)) :=
  (isDist hk).isDensity (pdf_off hk hE) (cdf_eval hk) (fun _ => f_zero)

/-- C03: for `k < 2` the density at 0 is reported as infinite, or as a division by zero -/
theorem pdf_at_zero (hk : 0 < k) (h : k < 2) : pdf (fin 0) (fin k) = .error .zeroDivision ∨ pdf (fin 0) (fin k) = .ok pinf := pdf_zero hk h

/-- C04, C42: everywhere for `k > 2`; at 0 not for `k ≤ 2` (see `logpdf_zero_fails`) -/
theorem isLogOf (hk : 0 < k) (hE : k ≤ 2 → (0:ℝ) ∈ E) : IsLogOf E (pdf · (fin k)) (logpdf · (fin k)) := by
  refine isLogOf_of (P := Ioi 0) (g := f k) (fun _ _ hx => f_pos hk hx)
    (fun x hx hx' => ?_) (fun x hx => pdf_off hk (fun h => hE h.le) x hx) (fun x _ hx => logpdf_pos hk hx)
    (fun x hx hx' => ?_)
  · rcases (show x ≤ 0 from not_lt.1 hx').eq_or_lt with h | h
    · rw [h] at hx ⊢
      have h1 : 2 < k := not_le.1 fun h => hx (hE h)
      rw [f, zero_div, gammaD.f_of_nonneg le_rfl, gammaD.g, Real.zero_rpow (by linarith)]; simp
    · exact f_zero (not_le.2 h)
  · rcases (show x ≤ 0 from not_lt.1 hx').eq_or_lt with h | h
    · rw [h] at hx ⊢
      have h1 : 2 < k := not_le.1 fun h => hx (hE h)
      simp only [logpdf_zero hk, h1, if_true]
    · exact logpdf_neg hk h

/-- C42 fails for `k = 2` at 0, where `pdf` is `1/2` and `logpdf` returns nan. -/
theorem logpdf_zero_fails : pdf (fin 0) (fin 2) = .ok (fin (1 / 2)) ∧ logpdf (fin 0) (fin 2) = .ok nan := by
  constructor
  · rw [pdf_eval two_pos 0 (Or.inl le_rfl), f, zero_div, gammaD.f_of_nonneg le_rfl, gammaD.g]; simp
  · simp [logpdf_zero two_pos]

/-- C05: assuming that the bisection finds the root -/
theorem inverts_cdf (hr : BisectFinder findroot) (hk : 0 < k) :
    InvertsSearch (Ioi 0) (cdf · (fin k)) (fun fuel p => invcdf findroot fuel p (fin k)) :=
  invertsSearch_of (F := F k) (fun x _ => cdf_eval hk x) (fun x hx => F_mem hk hx)
    (fun p h0 h1 => ⟨_, mul_pos two_pos (gammaD.Q_pos p), F_Q hk p h0 h1⟩) fun _ hx =>
    genericInv_of hr (fun t _ => cdf_eval hk t) (Or.inl ⟨rfl, F_strictMono hk⟩) (F_cont hk) hx

/-- C05: assuming that the bisection finds the root -/
theorem inverts_sf (hr : BisectFinder findroot) (hk : 0 < k) :
    InvertsSearch (Ioi 0) (sf · (fin k)) (fun fuel p => invsf findroot fuel p (fin k)) := by
  refine invertsSearch_of (F := fun x => 1 - F k x) (fun x _ => sf_eval hk x) (fun x hx => ?_)
    (fun p h0 h1 => ⟨_, mul_pos two_pos (gammaD.Q_pos (1 - p)), by rw [F_Q hk (1 - p) (by linarith) (by linarith)]; ring⟩) fun _ hx =>
    genericInv_of hr (fun t _ => sf_eval hk t) (Or.inr ⟨rfl, fun x hx y hy h => sub_lt_sub_left (F_strictMono hk hx hy h) 1⟩)
      (continuousOn_const.sub (F_cont hk)) hx
  obtain ⟨h0, h1⟩ := F_mem hk hx
  exact ⟨by linarith, by linarith⟩

/-- C53: assuming that the bisection finds the root -/
theorem inverts_cdf_k (hr : BisectFinder findroot) {x : ℝ} (hx : 0 < x) :
    InvertsSearch (Ioi 0) (fun k => cdf (fin x) k) (fun fuel p => invcdfK findroot fuel (fin x) p) :=
  invertsSearch_of (F := fun k => F k x) (fun _ hk => cdf_eval hk x) (fun _ hk => F_mem hk hx)
    (fun _ h0 h1 => exists_k hx h0 h1) fun _ hk =>
    genericInv_of (g := fun k => F k x) hr (fun t ht => cdf_eval ht x) (Or.inr ⟨rfl, F_strictAnti_k hx⟩) (F_cont_k hx) hk

/-- C53: assuming that the bisection finds the root -/
theorem inverts_sf_k (hr : BisectFinder findroot) {x : ℝ} (hx : 0 < x) :
    InvertsSearch (Ioi 0) (fun k => sf (fin x) k) (fun fuel p => invsfK findroot fuel (fin x) p) := by
  refine invertsSearch_of (F := fun k => 1 - F k x) (fun _ hk => sf_eval hk x) (fun _ hk => ?_)
    (fun p h0 h1 => ?_) fun _ hk =>
    genericInv_of (g := fun k => 1 - F k x) hr (fun t ht => sf_eval ht x)
      (Or.inl ⟨rfl, fun k hk k' hk' h => sub_lt_sub_left (F_strictAnti_k hx hk hk' h) 1⟩) (continuousOn_const.sub (F_cont_k hx)) hk
  · obtain ⟨h0, h1⟩ := F_mem hk hx
    exact ⟨by linarith, by linarith⟩
  · obtain ⟨k, hk, e⟩ := exists_k hx (p := 1 - p) (by linarith) (by linarith)
    exact ⟨k, hk, by rw [e]; ring⟩

/-- C06, C41 fail: `p` is not validated, and for `p` outside `(0, 1)` the search does not end (in exact arithmetic, for
`p = 1` too; `p = 0` and the values outside `[0, 1]` do not depend on rounding). -/
theorem search_fails (hk : 0 < k) {p : ℝ} (hp : p ≤ 0 ∨ 1 ≤ p) (fuel : ℕ) : invcdf findroot fuel (fin p) (fin k) = .error .diverges ∧
    invsf findroot fuel (fin p) (fin k) = .error .diverges := by
  rcases hp with hp | hp
  · exact ⟨genericInv_diverges_low (fun t _ => cdf_eval hk t) (Or.inl ⟨rfl, fun t ht => hp.trans_lt (F_mem hk ht).1⟩) fuel,
      genericInv_diverges_high (fun t _ => sf_eval hk t) (Or.inr ⟨rfl, fun t ht => by have := (F_mem hk ht).2; linarith⟩) fuel⟩
  · exact ⟨genericInv_diverges_high (fun t _ => cdf_eval hk t) (Or.inl ⟨rfl, fun t ht => (F_mem hk ht).2.trans_le hp⟩) fuel,
      genericInv_diverges_low (fun t _ => sf_eval hk t) (Or.inr ⟨rfl, fun t ht => by have := (F_mem hk ht).1; linarith⟩) fuel⟩

/-- C07 -/
theorem validates (x : ℝ) (hx : x ≠ 0) : ValidatesExactly (0 < k) (cdf (fin x) (fin k)) ∧ ValidatesExactly (0 < k) (sf (fin x) (fin k)) ∧
    ValidatesExactly (0 < k) (pdf (fin x) (fin k)) ∧ ValidatesExactly (0 < k) (logpdf (fin x) (fin k)) := by
  refine ⟨⟨fun h => ⟨_, cdf_eval h x⟩, fun h => ?_⟩, ⟨fun h => ⟨_, sf_eval h x⟩, fun h => ?_⟩,
    ⟨fun h => ⟨_, pdf_eval h x (Or.inr hx)⟩, fun h => ?_⟩, ⟨fun h => ?_, fun h => ?_⟩⟩
  case refine_4 =>
    rcases lt_or_gt_of_ne hx with h' | h'
    · exact ⟨_, logpdf_neg h h'⟩
    · exact ⟨_, logpdf_pos h h'⟩
  all_goals simp [cdf, sf, pdf, logpdf, validate_bad h]

/-- C07 -/
theorem validates_moments : ValidatesExactly (0 < k) (mean (fin k)) ∧ ValidatesExactly (0 < k) (var (fin k)) ∧
    ValidatesExactly (0 < k) (mode (fin k)) := by
  refine ⟨⟨fun h => ?_, fun h => ?_⟩, ⟨fun h => ?_, fun h => ?_⟩, ⟨fun h => ?_, fun h => ?_⟩⟩
  case refine_1 => exact ⟨_, by simp only [mean, validate_ok h, ok_bind]; rfl⟩
  case refine_3 => exact ⟨_, by simp only [var, validate_ok h, ok_bind]; rfl⟩
  case refine_5 =>
    rcases lt_or_ge k 2 with h1 | h1
    · exact ⟨_, mode_eval0 h h1⟩
    · exact ⟨_, mode_eval h1⟩
  all_goals simp [mean, var, mode, validate_bad h]

/-- C09 -/
theorem isMode (hk : 2 ≤ k) : IsMode ∅ (pdf · (fin k)) (mode (fin k)) := by
  have h0 : 0 < k := by linarith
  refine isMode_of (mode_eval hk) (fun x _ => pdf_eval h0 x (Or.inl hk)) (by simp) (fun y _ => ?_)
  have := gamma.f_le (show 1 ≤ k / 2 by linarith) (y / 2)
  rw [show k / 2 - 1 = (k - 2) / 2 by ring] at this
  exact div_le_div_of_nonneg_right this zero_le_two

/-- C09: for `k < 2`, where the density is unbounded near 0, `mode` is 0 and the density decreases from there. -/
theorem mode_unbounded (h0 : 0 < k) (hk : k < 2) : mode (fin k) = .ok 0 ∧
    ∀ x y : ℝ, 0 < x → x < y → ∃ a b : ℝ, pdf (fin x) (fin k) = .ok (fin a) ∧ pdf (fin y) (fin k) = .ok (fin b) ∧ b < a := by
  refine ⟨mode_eval0 h0 hk, fun x y hx hxy => ⟨_, _, pdf_eval h0 x (Or.inr hx.ne'), pdf_eval h0 y (Or.inr (hx.trans hxy).ne'), ?_⟩⟩
  rw [f, f, gammaD.f_of_nonneg (half_pos hx).le, gammaD.f_of_nonneg (half_pos (hx.trans hxy)).le]
  exact div_lt_div_of_pos_right (gamma.g_antitone (half_pos h0) (by linarith) (half_pos hx) (by linarith)) two_pos

/-- C12: the chi-squared distribution is the gamma distribution with shape `k/2` and scale 2. -/
theorem eq_gamma (hk : 0 < k) (x : ℝ) : cdf (fin x) (fin k) = gamma.cdf (fin x) (fin (k / 2)) (fin 2) ∧
    sf (fin x) (fin k) = gamma.sf (fin x) (fin (k / 2)) (fin 2) ∧
    ((2 ≤ k ∨ x ≠ 0) → pdf (fin x) (fin k) = gamma.pdf (fin x) (fin (k / 2)) (fin 2)) := by
  have h := half_pos hk
  rw [cdf_eval hk, sf_eval hk, gamma.cdf_eval h two_pos, gamma.sf_eval h two_pos]
  refine ⟨rfl, rfl, fun h1 => ?_⟩
  rw [pdf_eval hk x h1, gamma.pdf_eval h two_pos x (h1.imp (fun h => by linarith) id)]; rfl

/-- C37 -/
theorem isMean (hk : 0 < k) (hF : E.Finite) (hE : k < 2 → (0:ℝ) ∈ E) : IsMean E (pdf · (fin k)) (mean (fin k)) :=
  (hasMV hk).isMean hF (pdf_off hk hE) (by simp [mean, validate_ok hk])

/-- C37 -/
theorem isVar (hk : 0 < k) (hF : E.Finite) (hE : k < 2 → (0:ℝ) ∈ E) : IsVar E (pdf · (fin k)) (var (fin k)) :=
  (hasMV hk).isVar hF (pdf_off hk hE) (by simp [var, validate_ok hk])

/-- C37 -/
theorem isEntropy (hk : 0 < k) (hF : E.Finite) (hE : k < 2 → (0:ℝ) ∈ E) : IsEntropy E (pdf · (fin k)) (entropy (fin k)) := by
  have h := half_pos hk
  refine ((gamma.hasEnt_std h).scale two_pos (gamma.f_nonneg h)).isEntropy hF (pdf_off hk hE) ?_
  simp only [entropy, validate_ok hk, ok_bind, ofNat_def, fin_div _ two_ne_zero, mp.log_pos two_pos, mp.loggamma_pos h, mp.psi0_pos h,
    one_def, fin_sub, fin_mul, fin_add, pure_eq_ok]
  congr 2; ring

/-- C37, C50 -/
theorem isMoment (hk : 0 < k) (hF : E.Finite) (hE : k < 2 → (0:ℝ) ∈ E) (n : ℕ) :
    IsMoment E (pdf · (fin k)) n (noncentralMoment n (fin k)) := by
  have h := half_pos hk
  refine isMoment_of_int01 hF (pdf_off hk hE) (isDist hk) (Q := fun p => 2 * gammaD.Q (k / 2) p) (F_Q hk)
    (v := 2 ^ n * (Real.Gamma (k / 2 + n) / Real.Gamma (k / 2))) ?_ ?_
  · exact ((gamma.Yn h n).mul (2 ^ n)).congr fun p _ _ => by simp only [mul_pow]
  · have hv : validateMomentN (n : ℤ) = .ok n := by simp [validateMomentN]
    by_cases h0 : n = 0
    · subst h0
      simp only [noncentralMoment, hv, validate_ok hk, ok_bind, if_true, pow_zero, Nat.cast_zero, add_zero,
        div_self (gammaD.Gpos h).ne', mul_one]; rfl
    · simp only [noncentralMoment, hv, ok_bind, validate_ok hk, h0, if_false, ofNat_def, mp.ipow_fin, fin_div _ two_ne_zero, fin_add,
        add_comm (n:ℝ), mp.gammaprod_pos (by positivity : 0 < k / 2 + (n:ℝ)) h, fin_mul, pure_eq_ok]

/-- C50 -/
theorem moment_negative (n : ℤ) (h : n < 0) (k : Num) : noncentralMoment n k = .error .valueError := by
  simp [noncentralMoment, validateMomentN, h]

/-- C50 -/
theorem moments_agree (hk : 0 < k) : ∃ m v m2 : ℝ, mean (fin k) = .ok (fin m) ∧
    noncentralMoment 1 (fin k) = .ok (fin m) ∧ var (fin k) = .ok (fin v) ∧
    noncentralMoment 2 (fin k) = .ok (fin m2) ∧ v = m2 - m ^ 2 ∧ noncentralMoment 0 (fin k) = .ok 1 := by
  have h := half_pos hk
  have hg := (gammaD.Gpos h).ne'
  have h1 : validateMomentN 1 = .ok 1 := rfl
  have h2 : validateMomentN 2 = .ok 2 := rfl
  have h3 : validateMomentN 0 = .ok 0 := rfl
  refine ⟨k, 2 * k, k * (k + 2), by simp [mean, validate_ok hk], ?_, by simp [var, validate_ok hk],
    ?_, by ring, by simp [noncentralMoment, h3, validate_ok hk]⟩
  · simp only [noncentralMoment, h1, ok_bind, validate_ok hk, one_ne_zero, if_false, ofNat_def, mp.ipow_fin, fin_div _ two_ne_zero, fin_add,
      mp.gammaprod_pos (by positivity : 0 < ((1:ℕ):ℝ) + k / 2) h, fin_mul, pure_eq_ok]
    rw [Nat.cast_one, add_comm, Real.Gamma_add_one h.ne']
    congr 2; field_simp
  · simp only [noncentralMoment, h2, ok_bind, validate_ok hk, two_ne_zero, if_false, ofNat_def, mp.ipow_fin, fin_div _ two_ne_zero, fin_add,
      mp.gammaprod_pos (by positivity : 0 < ((2:ℕ):ℝ) + k / 2) h, fin_mul, pure_eq_ok]
    rw [show ((2:ℕ):ℝ) + k / 2 = k / 2 + 1 + 1 by push_cast; ring, Real.Gamma_add_one (by positivity), Real.Gamma_add_one h.ne']
    congr 2; field_simp

/-- C41 -/
theorem support_spec (hk : 0 < k) : support (fin k) = .ok (0, pinf) := by simp [support, validate_ok hk]

/-- C48 -/
theorem atInfinities (hk : 0 < k) : AtInfinities (cdf · (fin k)) (sf · (fin k)) :=
  ⟨by simp [cdf, validate_ok hk], cdf_pinf hk, by simp [sf, validate_ok hk], sf_pinf hk⟩

/-- Non-vacuity: parameters, and a root finder. -/
example : (∃ findroot, BisectFinder findroot) ∧ (0:ℝ) < 3 / 2 ∧ (2:ℝ) ≤ 3 :=
  ⟨exists_bisectFinder, by norm_num, by norm_num⟩

end Mpsci.chi2
