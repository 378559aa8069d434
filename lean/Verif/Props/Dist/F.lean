import Verif.Lemmas.Dist.F
import Verif.Model.Dist.Beta
import Verif.Props.Fun.Bisect

/-! Properties of `f`. -/

namespace Mpsci.fdist

open Classical Num Spec common Filter Topology Set

variable {k l : ℝ}

/-- C01 -/
theorem complementary (hk : 0 < k) (hl : 0 < l) : Complementary (cdf · (fin k) (fin l)) (sf · (fin k) (fin l)) :=
  complementary_of (cdf_eval hk hl) (sf_eval hk hl)

/-- C02 -/
theorem isCdf (hk : 0 < k) (hl : 0 < l) : IsCdf (cdf · (fin k) (fin l)) := (isDist hk hl).isCdf (cdf_eval hk hl)

theorem pdf_off (hk : 0 < k) (hl : 0 < l) : RealFnOff (E k) (pdf · (fin k) (fin l)) (f k l) := fun _ hx => pdf_eval hk hl hx

/-- C03: away from 0 when `dfn ≤ 2` -/
theorem isDensity (hk : 0 < k) (hl : 0 < l) : IsDensity (E k) (Ici 0) (pdf · (fin k) (fin l)) (cdf · (fin k) (fin l)) :=
  (isDist hk hl).isDensity (pdf_off hk hl) (cdf_eval hk hl) fun _ hx => f_neg hk hl (not_le.1 hx)

/-- C04, C42 -/
theorem isLogOf (hk : 0 < k) (hl : 0 < l) : IsLogOf ∅ (pdf · (fin k) (fin l)) (logpdf · (fin k) (fin l)) := by
  refine isLogOf_of (P := {x | 0 < x}) (g := fun x => if 0 < x then f k l x else 0) (fun x _ h => ?_) (fun x _ h => if_neg h)
    (fun x _ => ?_) (fun x _ h => ?_) fun x _ h => logpdf_nonpos hk hl (not_lt.1 h)
  · show 0 < if 0 < x then f k l x else 0
    rw [if_pos (show 0 < x from h)]; exact f_pos hk hl h
  · split_ifs with h
    · exact pdf_pos hk hl h
    · exact pdf_nonpos hk hl (not_lt.1 h)
  · rw [if_pos (show 0 < x from h)]; exact logpdf_pos hk hl h

/-- C03 fails at 0: for `dfn ≤ 2` the density is positive or unbounded there, but `pdf` returns 0. -/
theorem pdf_zero_fails (hk : 0 < k) (hk2 : k ≤ 2) (hl : 0 < l) : pdf (fin 0) (fin k) (fin l) = .ok (fin 0) ∧
    ∃ c : ℝ, 0 < c ∧ ∀ x : ℝ, 0 < x → x ≤ 1 → ∃ y : ℝ, pdf (fin x) (fin k) (fin l) = .ok (fin y) ∧ c ≤ y := by
  refine ⟨pdf_nonpos hk hl le_rfl, f k l 1, f_pos hk hl one_pos, fun x h0 h1 => ⟨_, pdf_pos hk hl h0, ?_⟩⟩
  rcases h1.eq_or_lt with rfl | h1
  · exact le_rfl
  · have hs := div_pos hl hk
    have hx : 0 < x / (l / k) := div_pos h0 hs
    have hxy : x / (l / k) < 1 / (l / k) := div_lt_div_of_pos_right h1 hs
    rw [f, f, bpD.f_of_nonneg hx.le, bpD.f_of_nonneg (hx.trans hxy).le]
    exact div_le_div_of_nonneg_right (bpD.g_anti (half_pos hk) (by linarith) (half_pos hl) hx hxy).le hs.le

/-- C05: with at least two bits, the bisection in `invcdf` ends with a number `t` that is the quantile of the beta distribution with
parameters `dfn/2` and `dfd/2` or a representable number next to it; if it is the quantile, `cdf` of the result is `p`; if it is 1, `invcdf` divides
by zero. -/
theorem inverts_cdf_rounded {q : ℕ} (hq : 2 ≤ q) (hk : 0 < k) (hl : 0 < l) : ∃ B : ℝ → ℝ, (∀ t ∈ Icc (0:ℝ) 1, mp.betaincReg (fin (k / 2)) (fin (l / 2)) 0 (fin t) = .ok (fin (B t))) ∧
    ∀ p, 0 < p → p < 1 → ∃ N t, RootFound (floats q) (fun t => B t - p) 0 1 t ∧
      (t < 1 → (∀ n ≥ N, invcdf (roundTo halfEven q) n (fin p) (fin k) (fin l) = .ok (fin (l / k * t / (1 - t)))) ∧
        cdf (fin (l / k * t / (1 - t))) (fin k) (fin l) = .ok (fin (B t))) ∧
      (t = 1 → ∀ n ≥ N, invcdf (roundTo halfEven q) n (fin p) (fin k) (fin l) = .error .zeroDivision) := by
  refine ⟨betaD.P (k / 2) (l / 2), fun t ht => mp.betaincReg_fin (half_pos hk) (half_pos hl) le_rfl zero_le_one ht.1 ht.2, fun p h0 h1 => ?_⟩
  obtain ⟨N, t, h2, h3⟩ := fn.betaincinv_bisect hq (half_pos hk) (half_pos hl) h0 h1 false
  simp only [zero_def, one_def] at h3
  have ht : t ∈ Icc (0:ℝ) 1 := by have := h2.2.1; rwa [uIcc_of_le zero_le_one] at this
  refine ⟨N, t, h2, fun ht1 => ⟨fun n hn => ?_, ?_⟩, fun ht1 n hn => ?_⟩
  · have h : 1 - t ≠ 0 := by linarith
    simp only [invcdf, validate_ok hk hl, ok_bind, validateP_ok h0.le h1.le, zero_def, one_def, ofNat_def, fin_div _ two_ne, h3 n hn, fin_div _ hk.ne', fin_mul,
      fin_sub, fin_div _ h]
  · have h : 0 < 1 - t := by linarith
    have e : l / k * t / (1 - t) / (l / k) = t / (1 - t) := by field_simp
    have hz : 0 ≤ t / (1 - t) := div_nonneg ht.1 h.le
    have hu : bpD.u (t / (1 - t)) = t := by rw [bpD.u]; field_simp; ring
    rw [cdf_eval hk hl, F, e, bpD.F_nonneg_arg hz, hu]
  · subst ht1
    simp only [invcdf, validate_ok hk hl, ok_bind, validateP_ok h0.le h1.le, zero_def, one_def, ofNat_def, fin_div _ two_ne, h3 n hn, fin_div _ hk.ne', fin_mul,
      fin_sub, sub_self, fin_div_zero]

/-- C05: with at least two bits, the bisection in `invsf` ends with a number `t` that is the quantile of the beta distribution with
parameters `dfd/2` and `dfn/2` or a representable number next to it; if it is the quantile, `sf` of the result is `p`; if it is 0, `invsf` divides
by zero. -/
theorem inverts_sf_rounded {q : ℕ} (hq : 2 ≤ q) (hk : 0 < k) (hl : 0 < l) : ∃ B : ℝ → ℝ, (∀ t ∈ Icc (0:ℝ) 1, mp.betaincReg (fin (l / 2)) (fin (k / 2)) 0 (fin t) = .ok (fin (B t))) ∧
    ∀ p, 0 < p → p < 1 → ∃ N t, RootFound (floats q) (fun t => B t - p) 0 1 t ∧
      (0 < t → (∀ n ≥ N, invsf (roundTo halfEven q) n (fin p) (fin k) (fin l) = .ok (fin (l / k * (1 - t) / t))) ∧
        sf (fin (l / k * (1 - t) / t)) (fin k) (fin l) = .ok (fin (B t))) ∧
      (t = 0 → ∀ n ≥ N, invsf (roundTo halfEven q) n (fin p) (fin k) (fin l) = .error .zeroDivision) := by
  refine ⟨betaD.P (l / 2) (k / 2), fun t ht => mp.betaincReg_fin (half_pos hl) (half_pos hk) le_rfl zero_le_one ht.1 ht.2, fun p h0 h1 => ?_⟩
  obtain ⟨N, t, h2, h3⟩ := fn.betaincinv_bisect hq (half_pos hl) (half_pos hk) h0 h1 false
  simp only [zero_def, one_def] at h3
  have ht : t ∈ Icc (0:ℝ) 1 := by have := h2.2.1; rwa [uIcc_of_le zero_le_one] at this
  refine ⟨N, t, h2, fun ht1 => ⟨fun n hn => ?_, ?_⟩, fun ht1 n hn => ?_⟩
  · simp only [invsf, validate_ok hk hl, ok_bind, validateP_ok h0.le h1.le, zero_def, one_def, ofNat_def, fin_div _ two_ne, h3 n hn, fin_div _ hk.ne', fin_mul,
      fin_sub, fin_div _ ht1.ne']
  · have h : 0 ≤ 1 - t := by linarith [ht.2]
    have e : l / k * (1 - t) / t / (l / k) = (1 - t) / t := by field_simp
    have hz : 0 ≤ (1 - t) / t := div_nonneg h ht1.le
    have hu : bpD.u ((1 - t) / t) = 1 - t := by rw [bpD.u]; field_simp; ring
    rw [sf_eval hk hl, F, e, bpD.F_nonneg_arg hz, hu, ← betaD.P_compl (half_pos hk) (half_pos hl) h (by linarith), sub_sub_cancel]
  · subst ht1
    simp only [invsf, validate_ok hk hl, ok_bind, validateP_ok h0.le h1.le, zero_def, one_def, ofNat_def, fin_div _ two_ne, h3 n hn, fin_div _ hk.ne', fin_mul,
      fin_sub, fin_div_zero]

/-- C06 -/
theorem rejects_p (rnd : ℝ → ℝ) (fuel : ℕ) : RejectsBadP (invcdf rnd fuel · (fin k) (fin l)) ∧ RejectsBadP (invsf rnd fuel · (fin k) (fin l)) := by
  by_cases h : 0 < k ∧ 0 < l
  · constructor <;> intro p hp <;> simp [invcdf, invsf, validateP_bad hp, validate_ok h.1 h.2]
  · constructor <;> intro p hp <;> simp [invcdf, invsf, validate_bad h]

/-- C07 -/
theorem validates (x : ℝ) :
    ValidatesExactly (0 < k ∧ 0 < l) (cdf (fin x) (fin k) (fin l)) ∧
    ValidatesExactly (0 < k ∧ 0 < l) (sf (fin x) (fin k) (fin l)) ∧
    ValidatesExactly (0 < k ∧ 0 < l) (pdf (fin x) (fin k) (fin l)) ∧
    ValidatesExactly (0 < k ∧ 0 < l) (logpdf (fin x) (fin k) (fin l)) ∧
    ValidatesExactly (0 < k ∧ 0 < l) (mode (fin k) (fin l)) ∧
    ValidatesExactly (0 < k ∧ 0 < l) (mean (fin k) (fin l)) ∧
    ValidatesExactly (0 < k ∧ 0 < l) (var (fin k) (fin l)) ∧
    ValidatesExactly (0 < k ∧ 0 < l) (entropy (fin k) (fin l)) := by
  refine ⟨⟨fun h => ⟨_, cdf_eval h.1 h.2 x⟩, fun h => ?_⟩, ⟨fun h => ⟨_, sf_eval h.1 h.2 x⟩, fun h => ?_⟩,
    ⟨fun h => ?_, fun h => ?_⟩, ⟨fun h => ?_, fun h => ?_⟩, ⟨fun h => ?_, fun h => ?_⟩, ⟨fun h => ?_, fun h => ?_⟩,
    ⟨fun h => ?_, fun h => ?_⟩, ⟨fun h => ⟨_, entropy_eval h.1 h.2⟩, fun h => ?_⟩⟩
  case refine_3 =>
    rcases le_or_gt x 0 with h0 | h0
    · exact ⟨_, pdf_nonpos h.1 h.2 h0⟩
    · exact ⟨_, pdf_pos h.1 h.2 h0⟩
  case refine_5 =>
    rcases le_or_gt x 0 with h0 | h0
    · exact ⟨_, logpdf_nonpos h.1 h.2 h0⟩
    · exact ⟨_, logpdf_pos h.1 h.2 h0⟩
  case refine_7 =>
    by_cases h1 : k ≤ 2
    · exact ⟨0, by simp [mode, validate_ok h.1 h.2, h1]⟩
    · exact ⟨_, mode_eval (not_le.1 h1) h.2⟩
  case refine_9 =>
    by_cases h1 : 2 < l
    · exact ⟨_, mean_eval h.1 h1⟩
    · exact ⟨pinf, by simp [mean, validate_ok h.1 h.2, h1]⟩
  case refine_11 =>
    by_cases h1 : 4 < l
    · exact ⟨_, var_eval h.1 h1⟩
    · exact ⟨pinf, by simp [var, validate_ok h.1 h.2, h1]⟩
  all_goals simp [cdf, sf, pdf, logpdf, mode, mean, var, entropy, validate_bad h]

/-- C07 -/
theorem validates_rest (h : ¬ (0 < k ∧ 0 < l)) (rnd : ℝ → ℝ) (fuel : ℕ) (p : Num) :
    invcdf rnd fuel p (fin k) (fin l) = .error .valueError ∧ invsf rnd fuel p (fin k) (fin l) = .error .valueError ∧
    support (fin k) (fin l) = .error .valueError := by
  simp [invcdf, invsf, support, validate_bad h]

theorem mode_scaled (hk : 0 < k) (hl : 0 < l) : (k - 2) / k * (l / (l + 2)) / (l / k) = (k / 2 - 1) / (l / 2 + 1) := by
  have : l + 2 ≠ 0 := by linarith
  field_simp

/-- C09 -/
theorem isMode (hk : 2 < k) (hl : 0 < l) : IsMode ∅ (pdf · (fin k) (fin l)) (mode (fin k) (fin l)) := by
  have h0 : 0 < k := by linarith
  refine isMode_of (mode_eval hk hl) (fun x _ => pdf_eval h0 hl fun h => hk.not_ge h.2) (by simp) (fun y _ => ?_)
  rw [f, f, mode_scaled h0 hl]
  exact div_le_div_of_nonneg_right (bpD.f_le (by linarith) (half_pos hl) _) (div_pos hl h0).le

/-- C09: for `dfn ≤ 2` the density decreases on `(0, ∞)`, and `mode` is 0. -/
theorem mode_left (hk : 0 < k) (hk2 : k ≤ 2) (hl : 0 < l) : mode (fin k) (fin l) = .ok (fin 0) ∧
    ∀ x y : ℝ, 0 < x → x < y → ∃ u v : ℝ, pdf (fin x) (fin k) (fin l) = .ok (fin u) ∧ pdf (fin y) (fin k) (fin l) = .ok (fin v) ∧ v < u := by
  refine ⟨by simp [mode, validate_ok hk hl, hk2], fun x y hx hxy => ⟨_, _, pdf_pos hk hl hx, pdf_pos hk hl (hx.trans hxy), ?_⟩⟩
  have hs := div_pos hl hk
  have h1 : 0 < x / (l / k) := div_pos hx hs
  have h2 : x / (l / k) < y / (l / k) := div_lt_div_of_pos_right hxy hs
  rw [f, f, bpD.f_of_nonneg h1.le, bpD.f_of_nonneg (h1.trans h2).le]
  exact div_lt_div_of_pos_right (bpD.g_anti (half_pos hk) (by linarith) (half_pos hl) h1 h2) hs

/-- C09 fails for `dfn ≤ 2`: `pdf` is 0 at the mode and positive elsewhere. -/
theorem mode_fails (hk : 0 < k) (hk2 : k ≤ 2) (hl : 0 < l) : ¬ IsMode ∅ (pdf · (fin k) (fin l)) (mode (fin k) (fin l)) := by
  rintro ⟨m, v, hm, hv, h⟩
  rw [(mode_left hk hk2 hl).1] at hm
  obtain rfl := Num.fin.inj (Except.ok.inj hm)
  obtain ⟨w, hw, hle⟩ := h 1 (by simp)
  have e0 := hv.symm.trans (pdf_nonpos hk hl le_rfl)
  have e1 := hw.symm.trans (pdf_pos hk hl one_pos)
  have := f_pos hk hl one_pos
  rw [Num.fin.inj (Except.ok.inj e0), Num.fin.inj (Except.ok.inj e1)] at hle
  linarith

/-- C12: `f` is the beta prime distribution with half the degrees of freedom and scale `dfd/dfn`. -/
theorem eq_betaprime (hk : 0 < k) (hl : 0 < l) (x : ℝ) :
    cdf (fin x) (fin k) (fin l) = betaprime.cdf (fin x) (fin (k / 2)) (fin (l / 2)) (fin (l / k)) ∧
    sf (fin x) (fin k) (fin l) = betaprime.sf (fin x) (fin (k / 2)) (fin (l / 2)) (fin (l / k)) ∧
    (x ≠ 0 → pdf (fin x) (fin k) (fin l) = betaprime.pdf (fin x) (fin (k / 2)) (fin (l / 2)) (fin (l / k)) ∧
      logpdf (fin x) (fin k) (fin l) = betaprime.logpdf (fin x) (fin (k / 2)) (fin (l / 2)) (fin (l / k))) ∧
    entropy (fin k) (fin l) = betaprime.entropy (fin (k / 2)) (fin (l / 2)) (fin (l / k)) := by
  have hs := div_pos hl hk
  rw [cdf_eval hk hl, sf_eval hk hl, entropy_eval hk hl, betaprime.cdf_eval (half_pos hk) (half_pos hl) hs,
    betaprime.sf_eval (half_pos hk) (half_pos hl) hs, betaprime.entropy_eval (half_pos hk) (half_pos hl) hs]
  refine ⟨rfl, rfl, fun hx => ?_, rfl⟩
  rw [pdf_eval hk hl fun h => hx h.1, betaprime.pdf_eval (half_pos hk) (half_pos hl) hs fun h => hx h.1]
  refine ⟨rfl, ?_⟩
  rcases lt_or_gt_of_ne hx with h | h
  · rw [logpdf_nonpos hk hl h.le, betaprime.logpdf_neg (half_pos hk) (half_pos hl) hs h]
  · rw [logpdf_pos hk hl h, betaprime.logpdf_pos (half_pos hk) (half_pos hl) hs h]; rfl

/-- C12: the reciprocal of an F variable has the degrees of freedom exchanged. -/
theorem reciprocal (hk : 0 < k) (hl : 0 < l) {x : ℝ} (hx : 0 < x) :
    sf (fin x) (fin k) (fin l) = cdf (fin (1 / x)) (fin l) (fin k) := by
  have hs := div_pos hl hk
  have hz := div_pos hx hs
  rw [sf_eval hk hl, cdf_eval hl hk, F, F, show 1 / x / (k / l) = 1 / (x / (l / k)) by field_simp, bpD.F_pos hz, bpD.F_pos (by positivity),
    ← betaD.P_compl (half_pos hk) (half_pos hl) (bpD.u_nonneg hz.le) (bpD.u_lt_one hz.le).le, bpD.one_sub_u hz.le]
  congr 3
  rw [bpD.u]; field_simp; ring

theorem F_Q (hk : 0 < k) (hl : 0 < l) (p : ℝ) (h0 : 0 < p) (h1 : p < 1) : F k l (l / k * bpD.Q (k / 2) (l / 2) p) = p :=
  betaprime.F_Qs (half_pos hk) (half_pos hl) (div_pos hl hk) p h0 h1
theorem F_Q0 (hk : 0 < k) (hl : 0 < l) (p : ℝ) (h0 : 0 < p) (h1 : p < 1) : F k l (0 + l / k * bpD.Q (k / 2) (l / 2) p) = p := by
  rw [zero_add]; exact F_Q hk hl p h0 h1

/-- C37 -/
theorem isMean (hk : 0 < k) (hl : 2 < l) : IsMean (E k) (pdf · (fin k) (fin l)) (mean (fin k) (fin l)) := by
  have h0 : 0 < l := by linarith
  have hl' : 1 < l / 2 := by linarith
  have hd : l - 2 ≠ 0 := by linarith
  have h := (bpD.Y1 (half_pos hk) hl').mul (l / k)
  have := isMoment_of_int01 (n := 1) (pdf := (pdf · (fin k) (fin l))) E_finite (pdf_off hk h0) (isDist hk h0)
    (F_Q hk h0) (by simpa only [pow_one] using h) ((mean_eval hk hl).trans (by
      rw [bpD.m_one (half_pos hk) hl', show l / 2 - 1 = (l - 2) / 2 by ring]; congr 2; field_simp))
  obtain ⟨hE, g, m, h1, h2, h3, h4⟩ := this
  simp only [pow_one] at h3 h4
  exact ⟨hE, g, m, h1, h2, h3, h4⟩

/-- C37: `mean` returns infinity only where there is no finite mean. -/
theorem mean_inf (hk : 0 < k) (h0 : 0 < l) (hl : l ≤ 2) : mean (fin k) (fin l) = .ok pinf ∧
    ¬ ∃ r, IsMean (E k) (pdf · (fin k) (fin l)) r :=
  ⟨by simp [mean, validate_ok hk h0, hl], not_isMean_aff (div_pos h0 hk).ne' (pdf_off hk h0) (isDist hk h0) (F_Q0 hk h0)
    (bpD.not_int (half_pos hk) (half_pos h0) 1 (by push_cast; linarith))⟩

/-- C37 -/
theorem isVar (hk : 0 < k) (hl : 4 < l) : IsVar (E k) (pdf · (fin k) (fin l)) (var (fin k) (fin l)) := by
  have h0 : 0 < l := by linarith
  have hl' : 2 < l / 2 := by linarith
  refine (betaprime.hasMV (half_pos hk) hl' (div_pos h0 hk)).isVar E_finite (pdf_off hk h0) ?_
  have h1 : l - 2 ≠ 0 := by linarith
  have h2 : l - 4 ≠ 0 := by linarith
  rw [var_eval hk hl, bpD.var_eq (half_pos hk) hl', show l / 2 - 2 = (l - 4) / 2 by ring, show l / 2 - 1 = (l - 2) / 2 by ring]
  congr 2; field_simp

/-- C37: `var` returns infinity only where there is no finite variance. -/
theorem var_inf (hk : 0 < k) (h0 : 0 < l) (hl : l ≤ 4) : var (fin k) (fin l) = .ok pinf ∧
    ¬ ∃ r, IsVar (E k) (pdf · (fin k) (fin l)) r :=
  ⟨by simp [var, validate_ok hk h0, hl], not_isVar_aff (div_pos h0 hk).ne' (pdf_off hk h0) (isDist hk h0) (F_Q0 hk h0)
    (bpD.not_int (half_pos hk) (half_pos h0) 2 (by push_cast; linarith))⟩

/-- C37 -/
theorem isEntropy (hk : 0 < k) (hl : 0 < l) : IsEntropy (E k) (pdf · (fin k) (fin l)) (entropy (fin k) (fin l)) :=
  ((bpD.hasEnt (half_pos hk) (half_pos hl)).scale (div_pos hl hk) (bpD.f_nonneg (half_pos hk) (half_pos hl))).isEntropy E_finite (pdf_off hk hl)
    (entropy_eval hk hl)

/-- C41 -/
theorem endPoints (hk : 0 < k) (hl : 0 < l) (rnd : ℝ → ℝ) (fuel : ℕ) :
    invcdf rnd fuel 0 (fin k) (fin l) = .ok 0 ∧ invsf rnd fuel 1 (fin k) (fin l) = .ok 0 ∧ support (fin k) (fin l) = .ok (0, pinf) := by
  have h0 : validateP (fin 0) = .ok (fin 0) := validateP_ok le_rfl zero_le_one
  have h1 : validateP (fin 1) = .ok (fin 1) := validateP_ok zero_le_one le_rfl
  obtain ⟨-, e0, -⟩ := fn.betaincinv_edges rnd fuel (fin (k / 2)) (fin (l / 2)) 0 1 false
  obtain ⟨-, -, e1⟩ := fn.betaincinv_edges rnd fuel (fin (l / 2)) (fin (k / 2)) 0 1 false
  simp only [zero_def, one_def] at e0 e1
  refine ⟨?_, ?_, by simp [support, validate_ok hk hl]⟩
  · simp only [invcdf, validate_ok hk hl, ok_bind, zero_def, one_def, h0, ofNat_def, fin_div _ two_ne, e0, fin_div _ hk.ne']
    simp [fin_div _ (one_ne_zero (α := ℝ))]
  · simp only [invsf, validate_ok hk hl, ok_bind, zero_def, one_def, h1, ofNat_def, fin_div _ two_ne, e1, fin_div _ hk.ne']
    simp [fin_div _ (one_ne_zero (α := ℝ))]

/-- C41 fails at the right end: `invcdf(1)` and `invsf(0)` divide by zero. -/
theorem endPoints_fails (hk : 0 < k) (hl : 0 < l) (rnd : ℝ → ℝ) (fuel : ℕ) :
    invcdf rnd fuel 1 (fin k) (fin l) = .error .zeroDivision ∧ invsf rnd fuel 0 (fin k) (fin l) = .error .zeroDivision := by
  have h0 : validateP (fin 0) = .ok (fin 0) := validateP_ok le_rfl zero_le_one
  have h1 : validateP (fin 1) = .ok (fin 1) := validateP_ok zero_le_one le_rfl
  obtain ⟨-, -, e1⟩ := fn.betaincinv_edges rnd fuel (fin (k / 2)) (fin (l / 2)) 0 1 false
  obtain ⟨-, e0, -⟩ := fn.betaincinv_edges rnd fuel (fin (l / 2)) (fin (k / 2)) 0 1 false
  simp only [zero_def, one_def] at e0 e1
  constructor
  · simp only [invcdf, validate_ok hk hl, ok_bind, zero_def, one_def, h1, ofNat_def, fin_div _ two_ne, e1, fin_div _ hk.ne']
    simp
  · simp only [invsf, validate_ok hk hl, ok_bind, zero_def, one_def, h0, ofNat_def, fin_div _ two_ne, e0, fin_div _ hk.ne']
    simp

/-- C48: at minus infinity; at infinity the argument handed to `mp.betainc` is `inf/inf`, which is nan. -/
theorem atInfinities_partial (hk : 0 < k) (hl : 0 < l) : cdf ninf (fin k) (fin l) = .ok 0 ∧ sf ninf (fin k) (fin l) = .ok 1 ∧
    cdf pinf (fin k) (fin l) = mp.betaincReg (fin (k / 2)) (fin (l / 2)) 0 nan ∧
    sf pinf (fin k) (fin l) = mp.betaincReg (fin (k / 2)) (fin (l / 2)) nan 1 := by
  refine ⟨by simp [cdf, validate_ok hk hl], by simp [sf, validate_ok hk hl], ?_, ?_⟩
  · simp only [cdf, validate_ok hk hl, ok_bind, ofNat_def, fin_div _ two_ne, fin_mul_pinf, scaleInf_pos hk]
    rw [if_neg (by simp)]; rfl
  · simp only [sf, validate_ok hk hl, ok_bind, ofNat_def, fin_div _ two_ne, fin_mul_pinf, scaleInf_pos hk]
    rw [if_neg (by simp)]; rfl

/-- Non-vacuity: degrees of freedom with all moments and a density that vanishes at 0, and with neither. -/
example : ((2:ℝ) < 3 ∧ (4:ℝ) < 5 ∧ E 3 = ∅) ∧ (0:ℝ) ∈ E 2 := by
  refine ⟨⟨by norm_num, by norm_num, ?_⟩, ⟨rfl, le_rfl⟩⟩
  ext x; simp only [E, mem_setOf_eq, mem_empty_iff_false, iff_false]; norm_num

end Mpsci.fdist
