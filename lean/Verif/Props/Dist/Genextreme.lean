import Verif.Lemmas.Dist.Genextreme
import Verif.Lemmas.PsiSeries

/-! Properties of `genextreme`. -/

namespace Mpsci.genextreme

open Classical Num Spec common Filter Topology Set 

variable {k m s : ℝ}

/-- C01 -/
theorem complementary (hs : 0 < s) : Complementary (cdf · (fin k) (fin m) (fin s)) (sf · (fin k) (fin m) (fin s)) :=
  complementary_of (cdf_eval hs) (sf_eval hs)

/-- C02 -/
theorem isCdf (hs : 0 < s) : IsCdf (cdf · (fin k) (fin m) (fin s)) := (isDist hs).isCdf (cdf_eval hs)

/-- C03 -/
theorem isDensity (hs : 0 < s) : IsDensity (Top k m s) (Supp k m s) (pdf · (fin k) (fin m) (fin s)) (cdf · (fin k) (fin m) (fin s)) :=
  (isDist hs).isDensity (fun x hx => pdf_eval hs x hx) (cdf_eval hs) (f_zero hs)

/-- C05 -/
theorem inverts_cdf (hs : 0 < s) : Inverts (Inner k m s) (cdf · (fin k) (fin m) (fin s)) (invcdf · (fin k) (fin m) (fin s)) := by
  rw [← preimage_SInt hs]
  exact inverts_affine hs (fun x _ => cdf_eval hs x) (fun _ => invcdf_eval hs) (fun _ => F_Q hs)
    (fun _ => Q_F hs)

/-- C05 -/
theorem inverts_sf (hs : 0 < s) : Inverts (Inner k m s) (sf · (fin k) (fin m) (fin s)) (invsf · (fin k) (fin m) (fin s)) := by
  rw [← preimage_SInt hs]
  exact inverts_affine_compl hs (fun x _ => sf_eval hs x) (fun _ => invsf_eval hs) (fun _ => F_Q hs)
    (fun _ => Q_F hs)

/-- C06 -/
theorem rejects_p : RejectsBadP (invcdf · (fin k) (fin m) (fin s)) ∧ RejectsBadP (invsf · (fin k) (fin m) (fin s)) := by
  by_cases h : 0 < s
  · constructor <;> intro p hp <;> simp [invcdf, invsf, validateP_bad hp, validate_ok h]
  · constructor <;> intro p hp <;> simp [invcdf, invsf, validateP_bad hp, validate_bad h]

/-- C08 -/
theorem locScale  : LocScaleInvariant (fun x loc s => cdf x (fin k) loc s) ∧
    LocScaleInvariant (fun x loc s => sf x (fin k) loc s) := 
  ⟨locScale_of_std fun x _ _ hs => cdf_eval hs x,
   locScale_of_std (G := fun z => 1 - F k z) fun x _ _ hs => sf_eval hs x⟩

/-- C07.  The exception in `pdf` is at the upper end of the support when `xi < -1`. -/
theorem validates (x : ℝ) :
    ValidatesExactly (0 < s) (cdf (fin x) (fin k) (fin m) (fin s)) ∧
    ValidatesExactly (0 < s) (sf (fin x) (fin k) (fin m) (fin s)) ∧
    (x ∉ Top k m s → ValidatesExactly (0 < s) (pdf (fin x) (fin k) (fin m) (fin s))) ∧
    ValidatesExactly (0 < s) (logpdf (fin x) (fin k) (fin m) (fin s)) := by
  refine ⟨⟨fun h => ⟨_, cdf_eval h x⟩, fun h => ?_⟩, ⟨fun h => ⟨_, sf_eval h x⟩, fun h => ?_⟩,
    fun hx => ⟨fun h => ⟨_, pdf_eval h x hx⟩, fun h => ?_⟩, ⟨fun h => ?_, fun h => ?_⟩⟩
  · simp [cdf, logcdf, validate_bad h]
  · simp [sf, logcdf, validate_bad h]
  · simp [pdf, validate_bad h]
  · by_cases hb : 0 < 1 + k * ((x - m) / s)
    · exact ⟨_, logpdf_in h hb⟩
    · exact ⟨_, logpdf_out h hb⟩
  · simp [logpdf, validate_bad h]

/-- C07 fails at the upper end of the support for `xi = -2`: `pdf` raises ZeroDivisionError. -/
theorem pdf_raises : pdf (fin (1 / 2)) (fin (-2)) 0 1 = .error .zeroDivision := by
  have h1 := validate_ok (k := -2) (m := 0) one_pos
  have h := mp.power_zero_neg_half (y := -1) (k := -2) (by norm_num) (by norm_num)
  have h2 := mp.power_zero_pos (y := 1 / 2) (by norm_num)
  simp only [zero_def, one_def, pdf, h1, ok_bind, fin_sub, fin_div _ (one_ne_zero (α := ℝ)), fin_eq,
    fin_div _ (show (-2:ℝ) ≠ 0 by norm_num), fin_lt, fin_le, neg_fin, fin_mul, fin_add]
  norm_num
  rw [h2]
  simp [h]

/-- C08 -/
theorem locScale_pdf (hs : 0 < s) (x : ℝ) (hx : x ∉ Top k m s) :
    pdf (fin x) (fin k) (fin m) (fin s) =
      (do let v ← pdf (fin ((x - m) / s)) (fin k) 0 1; v /. fin s) := by
  have h : (x - m) / s ∉ Top k 0 1 := by
    rintro ⟨h1, h2⟩
    refine hx ⟨h1, ?_⟩
    rw [div_eq_iff hs.ne'] at h2
    have : (0 - 1 / k) * s = -(s / k) := by ring
    linarith
  rw [pdf_eval hs x hx, zero_def, one_def, pdf_eval one_pos _ h]
  simp [fin_div _ hs.ne']

/-- C04.  Excluded: the upper end of the support when `xi ≤ -1`. -/
theorem isLogOf (hs : 0 < s) : IsLogOf {x | k ≤ -1 ∧ x = m - s / k}
    (pdf · (fin k) (fin m) (fin s)) (logpdf · (fin k) (fin m) (fin s)) := by
  intro x hx
  have ht : x ∉ Top k m s := fun h => hx ⟨h.1.le, h.2⟩
  refine ⟨_, div_nonneg (f_nonneg k _) hs.le, pdf_eval hs x ht, ?_⟩
  by_cases hb : 0 < 1 + k * ((x - m) / s)
  · rw [if_neg (div_pos (f_pos hb) hs).ne']; exact logpdf_in hs hb
  · have h0 : f k ((x - m) / s) / s = 0 := by
      have : f k ((x - m) / s) = 0 := by
        unfold f
        split_ifs with h1
        · rfl
        · push Not at h1
          have e : 1 + k * ((x - m) / s) = 0 := le_antisymm (not_lt.1 hb) h1.1
          have hk : k ≠ 0 := by rintro rfl; simp at e
          have hk0 : k < 0 := by
            rcases lt_or_gt_of_ne hk with h | h
            · exact h
            · exact absurd (h1.2 h) e.le.not_gt
          have he := (top_iff hs hk x).1 e
          have h2 : k + 1 ≠ 0 := fun h => hx ⟨by linarith, he⟩
          rw [T_zero hk0 e, Real.zero_rpow h2, zero_mul]
      rw [this, zero_div]
    rw [if_pos h0]; exact logpdf_out hs hb

/-- C04 fails at the upper end of the support for `xi = -1`: `pdf` is `1/sigma` but `logpdf` is `-inf`
(`pdf` treats the end point as inside the support, `logpdf` as outside). -/
theorem isLogOf_fails (hs : 0 < s) : ¬ IsLogOf ∅
    (pdf · (fin (-1)) (fin m) (fin s)) (logpdf · (fin (-1)) (fin m) (fin s)) := by
  intro h
  have hx : m - s / -1 ∉ Top (-1) m s := fun h => absurd h.1 (lt_irrefl _)
  have e : 1 + (-1) * ((m - s / -1 - m) / s) = 0 := (top_iff hs (by norm_num) _).2 rfl
  obtain ⟨r, _, h1, h2⟩ := h (m - s / -1) (by simp)
  have h1 := (pdf_eval hs _ hx).symm.trans h1
  have hf : f (-1) ((m - s / -1 - m) / s) = 1 := by
    rw [f, e, if_neg (by norm_num), T_zero (by norm_num) e]; norm_num
  rw [hf] at h1
  injection h1 with h1; injection h1 with h1
  have h3 := (logpdf_out hs (x := m - s / -1) (k := -1) (m := m) (by rw [e]; exact lt_irrefl _)).symm.trans h2
  rw [if_neg (by rw [← h1]; positivity)] at h3
  cases h3

/-- C51 -/
theorem isLogOf_cdf (hs : 0 < s) : IsLogOf ∅ (cdf · (fin k) (fin m) (fin s)) (logcdf · (fin k) (fin m) (fin s)) := by
  intro x _
  refine ⟨_, ?_, cdf_eval hs x, ?_⟩
  · unfold F; split_ifs <;> positivity
  · by_cases h : 0 < 1 + k * ((x - m) / s)
    · simp only [logcdf_in hs h, F, h, if_true, (Real.exp_pos _).ne', if_false, Real.log_exp]
    · by_cases hk : 0 < k <;> simp [logcdf_out hs h, F, h, hk]

theorem F_bounds (k z : ℝ) : 0 ≤ F k z ∧ F k z ≤ 1 := ⟨(isDist_std k).nonneg z, (isDist_std k).le_one z⟩

/-- C51 -/
theorem isLogOf_sf (hs : 0 < s) : IsLogOf ∅ (sf · (fin k) (fin m) (fin s)) (logsf · (fin k) (fin m) (fin s)) := by
  intro x _
  have hb := F_bounds k ((x - m) / s)
  refine ⟨_, sub_nonneg.2 hb.2, sf_eval hs x, ?_⟩
  simp only [logsf, invcdf_eval hs (show (0:ℝ) < 1 / 2 by norm_num) (by norm_num), ok_bind, fin_lt, sf_eval hs, cdf_eval hs,
    neg_fin]
  by_cases h : m + s * Q k (1 / 2) < x
  · rw [if_pos h]
    rcases hb.2.eq_or_lt with e | e
    · simp [e]
    · rw [if_neg (by linarith), mp.log_pos (by linarith)]
  · rw [if_neg h]
    have h1 : F k ((x - m) / s) ≤ 1 / 2 := by
      rw [← (F_Q (k := k) hs (show (0:ℝ) < 1 / 2 by norm_num) (by norm_num)).2]
      refine (isDist_std k).mono ?_
      rw [div_le_iff₀ hs]; linarith
    rw [if_neg (by linarith), mp.log1p_pos (by linarith)]
    rw [← sub_eq_add_neg]

/-- C09 -/
theorem isMode (hk : -1 ≤ k) (hs : 0 < s) :
    IsMode ∅ (pdf · (fin k) (fin m) (fin s)) (mode (fin k) (fin m) (fin s)) := by
  have ht : ∀ x, x ∉ Top k m s := fun x h => absurd h.1 hk.not_gt
  refine isMode_of (mode_eval hs hk) (fun x _ => pdf_eval hs x (ht x)) (by simp) fun y _ => ?_
  rw [show (m + s * md k - m) / s = md k by field_simp; ring, f_md hk]
  exact div_le_div_of_nonneg_right (f_le hk _) hs.le

/-- C09 For `xi < -1` the density is unbounded at the upper end of the support; `mode` is that point. -/
theorem mode_unbounded (hk : k < -1) (hs : 0 < s) :
    mode (fin k) (fin m) (fin s) = .ok (fin (m - s / k)) ∧
    ∃ f : ℝ → ℝ, (∀ x, x ∉ Top k m s → pdf (fin x) (fin k) (fin m) (fin s) = .ok (fin (f x))) ∧
      Tendsto f (𝓝[<] (m - s / k)) atTop := by
  have hk0 : k < 0 := by linarith
  constructor
  · simp only [mode, validate_ok hs, ok_bind, one_def, neg_fin, fin_lt, hk, if_true, fin_div _ hk0.ne, fin_sub, pure_eq_ok]
  · refine ⟨_, fun x hx => pdf_eval hs x hx, ?_⟩
    refine Tendsto.atTop_div_const hs ?_
    have hin : ∀ x, x < m - s / k → 0 < 1 + k * ((x - m) / s) := fun x hx => by
      by_contra hc; exact absurd ((bound_le_neg hs hk0 x).2 (not_lt.1 hc)) hx.not_ge
    have hcT : Continuous fun x => T k ((x - m) / s) := by
      have e : T k = fun z => (1 + k * z) ^ (-1 / k) := by funext z; simp [T, hk0.ne]
      rw [e]
      exact (by fun_prop : Continuous fun x : ℝ => 1 + k * ((x - m) / s)).rpow_const fun _ =>
        Or.inr (div_pos_of_neg_of_neg (by norm_num) hk0).le
    have h0 : T k ((m - s / k - m) / s) = 0 := T_zero hk0 ((top_iff hs hk0.ne _).2 rfl)
    have hT : Tendsto (fun x => T k ((x - m) / s)) (𝓝[<] (m - s / k)) (𝓝[>] 0) := by
      refine tendsto_nhdsWithin_iff.2 ⟨?_, ?_⟩
      · have := (hcT.tendsto (m - s / k)).mono_left (nhdsWithin_le_nhds (s := Iio (m - s / k)))
        rwa [h0] at this
      · filter_upwards [self_mem_nhdsWithin] with x hx using T_pos (hin x hx)
    have h1 : Tendsto (fun x => T k ((x - m) / s) ^ (k + 1)) (𝓝[<] (m - s / k)) atTop :=
      (tendsto_rpow_neg_nhdsGT_zero (by linarith : k + 1 < 0)).comp hT
    have h2 : Tendsto (fun x => Real.exp (-T k ((x - m) / s))) (𝓝[<] (m - s / k)) (𝓝 1) := by
      have := ((Real.continuous_exp.comp hcT.neg).tendsto (m - s / k)).mono_left
        (nhdsWithin_le_nhds (s := Iio (m - s / k)))
      simp only [Function.comp_def, Pi.neg_apply, h0, neg_zero, Real.exp_zero] at this
      exact this
    refine (h1.atTop_mul_pos one_pos h2).congr' ?_
    filter_upwards [self_mem_nhdsWithin] with x hx
    rw [f_in (hin x hx)]

/-- C37 -/
theorem isMean (hk : k < 1) (hs : 0 < s) :
    IsMean (Top k m s) (pdf · (fin k) (fin m) (fin s)) (mean (fin k) (fin m) (fin s)) := by
  by_cases h0 : k = 0
  · subst h0
    exact (hasMV_zero.affine m hs).isMean (finite_Top 0 m s) (pdf_eval hs) (by simp [mean, validate_ok hs])
  · refine (hasM_pos hs hk h0).isMean (finite_Top k m s) (pdf_eval hs) ?_
    simp only [mean, validate_ok hs, ok_bind, zero_def, one_def, fin_eq, h0, if_false, fin_lt, hk, if_true, fin_sub,
      mp.gamma_pos (sub_pos.2 hk), fin_mul, fin_div _ h0, fin_add, pure_eq_ok]
    congr 2; ring

/-- C37 -/
theorem isVar (hk : 2 * k < 1) (hs : 0 < s) :
    IsVar (Top k m s) (pdf · (fin k) (fin m) (fin s)) (var (fin k) (fin m) (fin s)) := by
  by_cases h0 : k = 0
  · subst h0
    refine (hasMV_zero.affine m hs).isVar (finite_Top 0 m s) (pdf_eval hs) ?_
    simp [var, validate_ok hs, fin_div _ (show (6:ℝ) ≠ 0 by norm_num)]; ring
  · refine (hasMV_pos hs hk h0).isVar (finite_Top k m s) (pdf_eval hs) ?_
    simp only [var, validate_ok hs, ok_bind, zero_def, one_def, ofNat_def, fin_eq, h0, if_false, fin_lt, hk, if_true, fin_sub, fin_mul,
      mp.gamma_pos (show 0 < 1 - k by linarith), mp.gamma_pos (show 0 < 1 - 2 * k by linarith), mp.ipow_fin,
      fin_div _ (pow_ne_zero 2 h0)]
    congr 2; ring

/-- C37 -/
theorem isEntropy (hs : 0 < s) :
    IsEntropy (Top k m s) (pdf · (fin k) (fin m) (fin s)) (entropy (fin k) (fin m) (fin s)) := by
  refine ((hasEnt_std k).affine m hs (f_nonneg k)).isEntropy (finite_Top k m s) (pdf_eval hs) ?_
  simp [entropy, validate_ok hs, mp.log_pos hs]; ring

theorem rpow_three_halves {b v : ℝ} (hv : 0 < v) : (b ^ 2 * v) ^ (3 / 2 : ℝ) = |b| ^ 3 * v ^ (3 / 2 : ℝ) := by
  rw [Real.mul_rpow (sq_nonneg b) hv.le, ← sq_abs, ← Real.rpow_natCast, ← Real.rpow_mul (abs_nonneg b)]
  congr 1
  rw [← Real.rpow_natCast]; norm_num

/-- C37, for `xi ≠ 0`. -/
theorem isSkewness_ne (h0 : k ≠ 0) (hk : 3 * k < 1) (hs : 0 < s) :
    IsSkewness (Top k m s) (pdf · (fin k) (fin m) (fin s)) (skewness (fin k) (fin m) (fin s)) := by
  have h1 := int01_Y (k := k) (j := 1) (by push_cast; linarith)
  have h2 := int01_Y (k := k) (j := 2) (by push_cast; linarith)
  have h3 := int01_Y (k := k) (j := 3) (by push_cast; linarith)
  simp only [pow_one, Nat.cast_one, mul_one, Nat.cast_ofNat] at h1 h2 h3
  rw [mul_comm k] at h2 h3
  have hb : s / k ≠ 0 := div_ne_zero hs.ne' h0
  refine isSkewness_of (finite_Top k m s) (pdf_eval hs) (isDist hs) (fun x => div_nonneg (f_nonneg k _) hs.le)
    (F_affine hs h0) h1 h2 h3 fun hv => ?_
  have hv : 0 < Real.Gamma (1 - 2 * k) - Real.Gamma (1 - k) ^ 2 := (mul_pos_iff_of_pos_left (by positivity)).1 hv
  rw [rpow_three_halves hv]
  have hp : (0:ℝ) < (Real.Gamma (1 - 2 * k) - Real.Gamma (1 - k) ^ 2) ^ (3 / 2 : ℝ) := by positivity
  simp only [skewness, validate_ok hs, ok_bind, zero_def, one_def, ofNat_def, fin_eq, h0, if_false, fin_lt, hk, if_true, fin_sub, fin_mul,
    mp.gamma_pos (show 0 < 1 - k by linarith), mp.gamma_pos (show 0 < 1 - 2 * k by linarith),
    mp.gamma_pos (show 0 < 1 - 3 * k by linarith), mp.ipow_fin, fin_add, mp.power_pos hv]
  rcases lt_or_gt_of_ne h0 with h | h
  · have : |s / k| = -(s / k) := abs_of_neg (div_neg_of_pos_of_neg hs h)
    simp only [this, mp.sign, h.not_gt, h, if_false, if_true, fin_mul, fin_div _ hp.ne']
    congr 2
    rw [show (-(s / k)) ^ 3 = -((s / k) ^ 3) by ring, neg_mul ((s / k) ^ 3), div_neg, mul_div_mul_left _ _ (pow_ne_zero 3 hb)]
    ring
  · have : |s / k| = s / k := abs_of_pos (div_pos hs h)
    simp only [this, mp.sign, h, if_true, one_def, fin_mul, fin_div _ hp.ne']
    congr 2
    rw [mul_div_mul_left _ _ (pow_ne_zero 3 hb)]
    ring

/-- C37, for `xi ≠ 0`. -/
theorem isKurtosis_ne (h0 : k ≠ 0) (hk : 4 * k < 1) (hs : 0 < s) :
    IsKurtosis (Top k m s) (pdf · (fin k) (fin m) (fin s)) (kurtosis (fin k) (fin m) (fin s)) := by
  have h1 := int01_Y (k := k) (j := 1) (by push_cast; linarith)
  have h2 := int01_Y (k := k) (j := 2) (by push_cast; linarith)
  have h3 := int01_Y (k := k) (j := 3) (by push_cast; linarith)
  have h4 := int01_Y (k := k) (j := 4) (by push_cast; linarith)
  simp only [pow_one, Nat.cast_one, mul_one, Nat.cast_ofNat] at h1 h2 h3 h4
  rw [mul_comm k] at h2 h3 h4
  refine isKurtosis_of (finite_Top k m s) (pdf_eval hs) (isDist hs) (fun x => div_nonneg (f_nonneg k _) hs.le)
    (F_affine hs h0) h1 h2 h3 h4 fun _ hv => ?_
  simp only [kurtosis, validate_ok hs, ok_bind, zero_def, one_def, ofNat_def, fin_eq, h0, if_false, fin_lt, hk, if_true, fin_sub, fin_mul,
    mp.gamma_pos (show 0 < 1 - k by linarith), mp.gamma_pos (show 0 < 1 - 2 * k by linarith),
    mp.gamma_pos (show 0 < 1 - 3 * k by linarith), mp.gamma_pos (show 0 < 1 - 4 * k by linarith), mp.ipow_fin, fin_add,
    fin_div _ (pow_ne_zero 2 hv.ne')]
  congr 2
  have hne := pow_ne_zero 2 hv.ne'
  rw [div_sub' hne, div_left_inj' hne]; ring

theorem F_zero (hs : 0 < s) (p : ℝ) (h0 : 0 < p) (h1 : p < 1) : F 0 ((m + -s * Real.log (-Real.log p) - m) / s) = p := by
  rw [show (m + -s * Real.log (-Real.log p) - m) / s = Q 0 p by simp only [Q, if_true]; field_simp; ring]
  exact (F_Q hs h0 h1).2

theorem LG_skew : LG 3 1 - 3 * LG 2 1 * LG 1 1 + 2 * LG 1 1 ^ 3 = -2 * ∑' n : ℕ, 1 / ((n:ℝ) + 1) ^ 3 := by
  have h := psi2_one
  simpa [loggammaD.psi2] using h

theorem LG_var : LG 2 1 - LG 1 1 ^ 2 = Real.pi ^ 2 / 6 := by
  have h := psi1_one
  simpa [psi1] using h

theorem LG_kurt : LG 4 1 - 4 * LG 3 1 * LG 1 1 - 3 * LG 2 1 ^ 2 + 12 * LG 2 1 * LG 1 1 ^ 2 - 6 * LG 1 1 ^ 4 = Real.pi ^ 4 / 15 := by
  have h := psi3_one
  simpa [loggammaD.psi3] using h

/-- C37, for `xi = 0`: the Gumbel distribution. -/
theorem isSkewness_zero (hs : 0 < s) :
    IsSkewness (Top 0 m s) (pdf · (fin 0) (fin m) (fin s)) (skewness (fin 0) (fin m) (fin s)) := by
  refine isSkewness_of (finite_Top 0 m s) (pdf_eval hs) (isDist hs) (fun x => div_nonneg (f_nonneg 0 _) hs.le)
    (F_zero hs) (by simpa using int01_loglog 1) (int01_loglog 2) (int01_loglog 3) fun _ => ?_
  have hpi := Real.pi_pos
  have e : ((-s) ^ 2 * (Real.pi ^ 2 / 6)) ^ (3 / 2 : ℝ) = s ^ 3 * (Real.pi ^ 3 / (6 * Real.sqrt 6)) := by
    rw [show (-s) ^ 2 * (Real.pi ^ 2 / 6) = (s * Real.pi / Real.sqrt 6) ^ 2 by
      rw [div_pow, Real.sq_sqrt (by norm_num)]; ring, ← Real.rpow_natCast, ← Real.rpow_mul (by positivity)]
    rw [show ((2:ℕ):ℝ) * (3 / 2) = (3:ℕ) by norm_num, Real.rpow_natCast, div_pow,
      show Real.sqrt 6 ^ 3 = 6 * Real.sqrt 6 by rw [pow_succ, Real.sq_sqrt (by norm_num)]]
    ring
  rw [LG_var, LG_skew, e]
  simp only [skewness, validate_ok hs, ok_bind, zero_def, ofNat_def, fin_eq, if_true, mp.sqrt_nonneg (show (0:ℝ) ≤ 6 by norm_num), mp.zeta, mp.pi,
    mp.ipow_fin, fin_mul, fin_div _ (pow_ne_zero 3 hpi.ne')]
  congr 2
  field_simp
  ring

/-- C37, for `xi = 0`: the Gumbel distribution. -/
theorem isKurtosis_zero (hs : 0 < s) :
    IsKurtosis (Top 0 m s) (pdf · (fin 0) (fin m) (fin s)) (kurtosis (fin 0) (fin m) (fin s)) := by
  refine isKurtosis_of (finite_Top 0 m s) (pdf_eval hs) (isDist hs) (fun x => div_nonneg (f_nonneg 0 _) hs.le)
    (F_zero hs) (by simpa using int01_loglog 1) (int01_loglog 2) (int01_loglog 3) (int01_loglog 4) fun _ hv => ?_
  have hpi := Real.pi_pos
  have e : LG 4 1 - 4 * LG 3 1 * LG 1 1 + 6 * LG 2 1 * LG 1 1 ^ 2 - 3 * LG 1 1 ^ 4 =
      Real.pi ^ 4 / 15 + 3 * (LG 2 1 - LG 1 1 ^ 2) ^ 2 := by rw [← LG_kurt]; ring
  rw [e, LG_var]
  simp only [kurtosis, validate_ok hs, ok_bind, zero_def, ofNat_def, fin_eq, if_true, fin_div _ (show (5:ℝ) ≠ 0 by norm_num)]
  congr 2
  field_simp
  ring

/-- C37 -/
theorem isSkewness (hk : 3 * k < 1) (hs : 0 < s) :
    IsSkewness (Top k m s) (pdf · (fin k) (fin m) (fin s)) (skewness (fin k) (fin m) (fin s)) := by
  by_cases h0 : k = 0
  · subst h0; exact isSkewness_zero hs
  · exact isSkewness_ne h0 hk hs

/-- C37 -/
theorem isKurtosis (hk : 4 * k < 1) (hs : 0 < s) :
    IsKurtosis (Top k m s) (pdf · (fin k) (fin m) (fin s)) (kurtosis (fin k) (fin m) (fin s)) := by
  by_cases h0 : k = 0
  · subst h0; exact isKurtosis_zero hs
  · exact isKurtosis_ne h0 hk hs

/-- C50 -/
theorem moment_rejects {n : ℤ} (hn : n < 0) : noncentralMoment n (fin k) (fin m) (fin s) = .error .valueError := by
  simp [noncentralMoment, validateMomentN, hn]

/-- C37, C50: for `xi ≠ 0` the moment of every order `n` with `xi n < 1`. -/
theorem isMoment (h0 : k ≠ 0) (n : ℕ) (hk : k * n < 1) (hs : 0 < s) :
    IsMoment (Top k m s) (pdf · (fin k) (fin m) (fin s)) n (noncentralMoment n (fin k) (fin m) (fin s)) := by
  have hi : Int01 (fun p => (m + s * Q k p) ^ n)
      (∑ j ∈ Finset.range (n + 1), (n.choose j : ℝ) * m ^ (n - j) * s ^ j * SM k j) := by
    have := Int01.sum (Finset.range (n + 1)) fun j hj =>
      (int01_Qn h0 (n := j) (mul_lt_of_le hk (by simpa [Nat.lt_succ_iff] using hj))).mul
        ((n.choose j : ℝ) * m ^ (n - j) * s ^ j)
    refine this.congr fun p _ _ => ?_
    rw [add_comm, add_pow]
    exact Finset.sum_congr rfl fun j _ => by rw [mul_pow]; ring
  refine isMoment_of_int01 (finite_Top k m s) (pdf_eval hs) (isDist hs)
    (fun p h0 h1 => by rw [show (m + s * Q k p - m) / s = Q k p by field_simp; ring]; exact (F_Q hs h0 h1).2) hi ?_
  have hv : validateMomentN (n : ℤ) = .ok n := by simp [validateMomentN]
  simp only [noncentralMoment, hv, validate_ok hs, ok_bind]
  rcases Nat.eq_zero_or_pos n with rfl | hn
  · simp [SM]
  · have hn0 : (n:ℝ) ≠ 0 := by positivity
    have hl := ((lt_inv_nat (k := k) hn.ne').2 hk).not_ge
    have h1 : ∀ j ∈ List.range (n + 1),
        (do return (← mp.binomial n j) * mp.ipow (fin m) (n - j) * mp.ipow (fin s) j *
          (← standardNoncentralMoment j (fin k)) : M Num) =
          .ok (fin ((n.choose j : ℝ) * m ^ (n - j) * s ^ j * SM k j)) := by
      intro j hj
      have hj : j ≤ n := by simpa [Nat.lt_succ_iff] using hj
      simp only [mp.binomial_nat, ok_bind, fin_mul, mp.ipow_fin, snm_eval h0 (mul_lt_of_le hk hj), pure_eq_ok]
    simp only [hn.ne', if_false, one_def, fin_div _ hn0, ok_bind, fin_le, hl]
    rw [mapM_ok _ h1]
    simp only [ok_bind, mp.fsum_map_fin, pure_eq_ok]
    rw [← List.sum_toFinset _ List.nodup_range, List.toFinset_range]

/-- C50 fails for `xi = 0` (the Gumbel case): every moment of positive order raises ZeroDivisionError. -/
theorem moment_raises (n : ℕ) (hn : 0 < n) (hs : 0 < s) :
    noncentralMoment n (fin 0) (fin m) (fin s) = .error .zeroDivision := by
  have hv : validateMomentN (n : ℤ) = .ok n := by simp [validateMomentN]
  have hn0 : (n:ℝ) ≠ 0 := by positivity
  have hl : ¬ (1 / (n:ℝ) ≤ 0) := by have : 0 < 1 / (n:ℝ) := by positivity
                                    linarith
  have h1 : standardNoncentralMoment 1 (fin 0) = .error .zeroDivision := by
    have h2 : ∀ j ∈ List.range (1 + 1),
        (do return (← mp.binomial (1:ℕ) j) * mp.ipow (-1) j * (← mp.gamma (1 - fin 0 * fin j)) : M Num) =
          .ok (fin ((Nat.choose 1 j : ℝ) * (-1) ^ j * Real.Gamma (1 - 0 * j))) := by
      intro j hj
      have : 0 < 1 - (0:ℝ) * j := by simp
      simp only [mp.binomial_nat, ok_bind, fin_mul, one_def, fin_sub, mp.gamma_pos this, neg_fin, mp.ipow_fin, pure_eq_ok]
    simp only [standardNoncentralMoment, one_ne_zero, if_false, one_def, Nat.cast_one, fin_div _ (one_ne_zero (α := ℝ)), ok_bind,
      fin_lt]
    simp only [one_def, Nat.cast_one] at h2
    rw [if_pos (by norm_num), mapM_ok _ h2]
    simp only [ok_bind, mp.fsum_map_fin, neg_fin, mp.ipow_fin, neg_zero, pow_one, fin_div_zero]
  simp only [noncentralMoment, hv, validate_ok hs, ok_bind, hn.ne', if_false, one_def, fin_div _ hn0, fin_le, hl]
  obtain ⟨n, rfl⟩ : ∃ j, n = j + 1 := ⟨n - 1, by omega⟩
  rw [show List.range (n + 1 + 1) = 0 :: 1 :: (List.range n).map (· + 2) from by
    rw [List.range_succ_eq_map, List.range_succ_eq_map]; simp [Function.comp_def]]
  have h0 : standardNoncentralMoment 0 (fin 0) = .ok 1 := by simp [standardNoncentralMoment]
  have hb0 := mp.binomial_nat (n + 1) 0
  have hb1 := mp.binomial_nat (n + 1) 1
  simp only [List.mapM_cons, hb0, hb1, h0, h1, ok_bind]
  rfl

/-- C41 The ends, except the infinite upper end for `xi > 0`. -/
theorem endPoints_partial (hs : 0 < s) :
    invcdf 0 (fin k) (fin m) (fin s) = .ok (if 0 < k then fin (m - s / k) else ninf) ∧
    invsf 1 (fin k) (fin m) (fin s) = .ok (if 0 < k then fin (m - s / k) else ninf) ∧
    (k ≤ 0 → invcdf 1 (fin k) (fin m) (fin s) = .ok (if k < 0 then fin (m - s / k) else pinf) ∧
      invsf 0 (fin k) (fin m) (fin s) = .ok (if k < 0 then fin (m - s / k) else pinf)) := by
  have hl : mp.log1p (fin 0) = .ok (fin 0) := mp_log1p_zero
  have hl1 : mp.log1p (fin (-1)) = .ok ninf := mp.log1p_neg_one
  rcases lt_trichotomy k 0 with h | h | h
  · have h1 : mp.power pinf (fin (-k)) = .ok pinf := by simp [mp.power, h]
    have h2 := mp.power_zero_pos (neg_pos.2 h)
    have h3 := div_neg_of_pos_of_neg hs h
    refine ⟨?_, ?_, fun _ => ⟨?_, ?_⟩⟩ <;>
    simp [invcdf, invsf, validateP_ok, validate_ok hs, h, h.ne, h.not_gt, fin_div _ h.ne, mp.powm1, h1, h2, hl, hl1,
      scaleInf_neg h3, sub_eq_add_neg]
  · subst h
    refine ⟨?_, ?_, fun _ => ⟨?_, ?_⟩⟩ <;>
    simp [invcdf, invsf, validateP_ok, validate_ok hs, scaleInf_pos hs, hl, hl1]
  · have h1 : mp.power pinf (fin (-k)) = .ok 0 := by simp [mp.power, h.not_gt, h.ne', h.le]
    refine ⟨?_, ?_, fun h2 => absurd h h2.not_gt⟩ <;>
    simp [invcdf, invsf, validateP_ok, validate_ok hs, h, h.ne', fin_div _ h.ne', mp.powm1, h1, hl1, sub_eq_add_neg]

/-- C41 For `xi > 0` the upper end is computed with `0**(-xi)`: `+inf` as it should be, except that
ZeroDivisionError is raised when `2 xi` is an integer. -/
theorem endPoints_upper (hk : 0 < k) (hs : 0 < s) :
    ((¬ ∃ j : ℤ, 2 * k = j) → invcdf 1 (fin k) (fin m) (fin s) = .ok pinf ∧
      invsf 0 (fin k) (fin m) (fin s) = .ok pinf) ∧
    ((∃ j : ℤ, 2 * k = j) → invcdf 1 (fin k) (fin m) (fin s) = .error .zeroDivision ∧
      invsf 0 (fin k) (fin m) (fin s) = .error .zeroDivision) := by
  have hl : mp.log1p (fin 0) = .ok (fin 0) := mp_log1p_zero
  have hn : -k < 0 := by linarith
  constructor
  · intro hj
    have h : mp.power (fin 0) (fin (-k)) = .ok pinf := by
      rw [mp.power_zero_neg hn, if_neg]
      intro h; exact hj ⟨-⌊2 * -k⌋, by push_cast; rw [h]; ring⟩
    have h2 := div_pos hs hk
    constructor <;>
    simp [invcdf, invsf, validateP_ok, validate_ok hs, hk.ne', fin_div _ hk.ne', mp.powm1, h, hl, scaleInf_pos h2]
  · rintro ⟨j, hj⟩
    have h : mp.power (fin 0) (fin (-k)) = .error .zeroDivision :=
      mp.power_zero_neg_half (k := -j) hn (by push_cast; rw [← hj]; ring)
    constructor <;>
    simp [invcdf, invsf, validateP_ok, validate_ok hs, hk.ne', fin_div _ hk.ne', mp.powm1, h, hl]

/-- C48 -/
theorem atInfinities (hs : 0 < s) : AtInfinities (cdf · (fin k) (fin m) (fin s)) (sf · (fin k) (fin m) (fin s)) := by
  rcases lt_trichotomy k 0 with h | h | h
  · have hp : 0 < -1 / k := div_pos_of_neg_of_neg (by norm_num) h
    have h1 : mp.power pinf (fin (-1 / k)) = .ok pinf := by simp only [mp.power, hp, if_true]
    refine ⟨?_, ?_, ?_, ?_⟩ <;>
    simp [cdf, sf, logcdf, validate_ok hs, pinf_div_pos hs, ninf_div_pos hs, h, h.ne, h.not_gt, fin_div _ h.ne, scaleInf_neg h, h1]
  · subst h
    refine ⟨?_, ?_, ?_, ?_⟩ <;>
    simp [cdf, sf, logcdf, validate_ok hs, pinf_div_pos hs, ninf_div_pos hs]
  · have hp : -1 / k < 0 := div_neg_of_neg_of_pos (by norm_num) h
    have h1 : mp.power pinf (fin (-1 / k)) = .ok 0 := by simp [mp.power, hp.not_gt, hp.ne]
    refine ⟨?_, ?_, ?_, ?_⟩ <;>
    simp [cdf, sf, logcdf, validate_ok hs, pinf_div_pos hs, ninf_div_pos hs, h, h.ne', h.not_gt, fin_div _ h.ne', scaleInf_pos h, h1]

theorem support_eq (hs : 0 < s) : support (fin k) (fin m) (fin s) =
    .ok (if 0 < k then fin (m - s / k) else ninf, if k < 0 then fin (m - s / k) else pinf) := by
  rcases lt_trichotomy k 0 with h | h | h
  · simp [support, validate_ok hs, h, h.ne, h.not_gt, fin_div _ h.ne]
  · subst h; simp [support, validate_ok hs]
  · simp [support, validate_ok hs, h, h.ne', h.not_gt, fin_div _ h.ne']

/-- Non-vacuity: `xi = -1`, `mu = 2`, `sigma = 3` has mode `5` and mean `2`. -/
example : (0:ℝ) < 3 ∧ mode (fin (-1)) (fin 2) (fin 3) = .ok (fin 5) ∧
    mean (fin (-1)) (fin 2) (fin 3) = .ok (fin 2) := by
  refine ⟨by norm_num, ?_, ?_⟩
  · rw [mode_eval (by norm_num) le_rfl, md]; norm_num
  · simp only [mean, validate_ok (show (0:ℝ) < 3 by norm_num), ok_bind, one_def, zero_def, fin_lt, fin_eq, fin_sub]
    norm_num [mp.gamma_pos, fin_div _ (show (-1:ℝ) ≠ 0 by norm_num)]

end Mpsci.genextreme
