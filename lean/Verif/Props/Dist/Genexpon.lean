import Verif.Lemmas.Dist.Genexpon

/-! Properties of `genexpon`. Every function of `x` raises ValueError to the left of the support, so that C01 to C04 and
C48 hold only on `[loc, ∞)`. -/

namespace Mpsci.genexpon

open Classical Num Spec common Filter Topology Set MeasureTheory

variable {a b c loc s : ℝ}

/-- C01 on `[loc, ∞)`. Missing: `x < loc`, where both functions raise (`raises_left`). -/
theorem complementary_partial (h : Valid a b c s) {x : ℝ} (hx : loc ≤ x) : ∃ u v : ℝ,
    cdf (fin x) (fin a) (fin b) (fin c) (fin loc) (fin s) = .ok (fin u) ∧
    sf (fin x) (fin a) (fin b) (fin c) (fin loc) (fin s) = .ok (fin v) ∧ u + v = 1 :=
  ⟨_, _, cdf_eval h hx, sf_eval h hx, by ring⟩

/-- C01, C02, C03 and C04 fail for `x < loc`: the distribution function there is 0, but the code raises. -/
theorem raises_left {x : ℝ} (hx : x < loc) :
    cdf (fin x) (fin a) (fin b) (fin c) (fin loc) (fin s) = .error .valueError ∧
    sf (fin x) (fin a) (fin b) (fin c) (fin loc) (fin s) = .error .valueError ∧
    pdf (fin x) (fin a) (fin b) (fin c) (fin loc) (fin s) = .error .valueError ∧
    logpdf (fin x) (fin a) (fin b) (fin c) (fin loc) (fin s) = .error .valueError := by
  refine ⟨?_, ?_, ?_, ?_⟩ <;> simp [cdf, sf, pdf, logpdf, vx_low hx]

/-- C02 fails: no total function of a real argument. -/
theorem not_isCdf : ¬ IsCdf (cdf · (fin a) (fin b) (fin c) (fin loc) (fin s)) := by
  rintro ⟨G, hG, -⟩
  have h1 := hG (loc - 1)
  have h2 := (raises_left (a := a) (b := b) (c := c) (s := s) (show loc - 1 < loc by linarith)).1
  simp only at h1
  rw [h2] at h1; exact absurd h1 (by simp)

/-- C02 and C03 on `[loc, ∞)`: there `cdf` and `pdf` agree with a continuous distribution function `G` and its density
`g`, both 0 to the left of `loc`. Missing: `x < loc`, where both functions raise. -/
theorem isDist_partial (h : Valid a b c s) : ∃ G g : ℝ → ℝ,
    (∀ x, loc ≤ x → cdf (fin x) (fin a) (fin b) (fin c) (fin loc) (fin s) = .ok (fin (G x)) ∧
      pdf (fin x) (fin a) (fin b) (fin c) (fin loc) (fin s) = .ok (fin (g x))) ∧
    (∀ x, x < loc → G x = 0 ∧ g x = 0) ∧ Monotone G ∧ Continuous G ∧ (∀ x, 0 ≤ G x ∧ G x ≤ 1) ∧
    Tendsto G atTop (𝓝 1) ∧ (∀ x, 0 ≤ g x) ∧ Integrable g ∧ (∀ x, ∫ t in Iic x, g t = G x) ∧ ∫ t, g t = 1 := by
  have hd := isDist (loc := loc) h
  refine ⟨_, _, fun x hx => ⟨cdf_eval h hx, pdf_eval h hx⟩, fun x hx => ?_, hd.mono, hd.cont,
    fun x => ⟨hd.nonneg x, hd.le_one x⟩, hd.lim1, hd.f_nonneg, hd.integrable, hd.integral_Iic, hd.integral_one⟩
  have : (x - loc) / s < 0 := div_neg_of_neg_of_pos (by linarith) h.2.2.2
  simp [F, f, this, this.le]

/-- C04 on `[loc, ∞)` for `scale = 1`. Missing: `x < loc` (`raises_left`) and other scales, where it fails
(`logpdf_omits_scale`). -/
theorem isLogOf_partial (h : Valid a b c 1) {x : ℝ} (hx : loc ≤ x) : ∃ r : ℝ, 0 < r ∧
    pdf (fin x) (fin a) (fin b) (fin c) (fin loc) 1 = .ok (fin r) ∧
    logpdf (fin x) (fin a) (fin b) (fin c) (fin loc) 1 = .ok (fin (Real.log r)) := by
  refine ⟨f a b c ((x - loc) / 1) / 1, ?_, pdf_eval h hx, by rw [div_one (f a b c _)]; exact logpdf_eval h hx⟩
  have := z_nonneg one_pos hx
  rw [div_one (f a b c _), f, if_neg this.not_gt]; exact mul_pos (hz_pos h this) (Real.exp_pos _)

/-- C04, C42 fails for `scale ≠ 1`: `logpdf` is `log (pdf) + log scale`. -/
theorem logpdf_omits_scale (h : Valid a b c s) {x : ℝ} (hx : loc ≤ x) : ∃ r : ℝ, 0 < r ∧
    pdf (fin x) (fin a) (fin b) (fin c) (fin loc) (fin s) = .ok (fin r) ∧
    logpdf (fin x) (fin a) (fin b) (fin c) (fin loc) (fin s) = .ok (fin (Real.log r + Real.log s)) ∧
    (s ≠ 1 → Real.log r + Real.log s ≠ Real.log r) := by
  have hz0 := z_nonneg h.2.2.2 hx
  have hf : 0 < f a b c ((x - loc) / s) := by
    rw [f, if_neg hz0.not_gt]; exact mul_pos (hz_pos h hz0) (Real.exp_pos _)
  refine ⟨_, div_pos hf h.2.2.2, pdf_eval h hx, ?_, fun h1 e => ?_⟩
  · rw [logpdf_eval h hx, Real.log_div hf.ne' h.2.2.2.ne']; congr 2; ring
  · have : Real.log s = 0 := by linarith
    rcases Real.log_eq_zero.1 this with h' | h' | h' <;> [linarith [h.2.2.2]; exact h1 h'; linarith [h.2.2.2]]

/-- C05 -/
theorem inverts_cdf (h : Valid a b c s) : Inverts (Ioi loc) (cdf · (fin a) (fin b) (fin c) (fin loc) (fin s))
    (invcdf · (fin a) (fin b) (fin c) (fin loc) (fin s)) :=
  inverts_of_spec (fun _ hx => cdf_eval h (le_of_lt hx)) (fun _ hx => F_mem h hx) (injOn_F h)
    fun _ h0 h1 => invcdf_spec h h0 h1

/-- C05 -/
theorem inverts_sf (h : Valid a b c s) : Inverts (Ioi loc) (sf · (fin a) (fin b) (fin c) (fin loc) (fin s))
    (invsf · (fin a) (fin b) (fin c) (fin loc) (fin s)) :=
  inverts_of_spec (F := fun x => 1 - F a b c ((x - loc) / s)) (fun _ hx => sf_eval h (le_of_lt hx))
    (fun x hx => ⟨by linarith [(F_mem h hx).2], by linarith [(F_mem h hx).1]⟩)
    (fun x hx y hy e => injOn_F h hx hy (by simpa using e))
    fun _ h0 h1 => invsf_spec h h0 h1

/-- C06 -/
theorem rejects_p : RejectsBadP (invcdf · (fin a) (fin b) (fin c) (fin loc) (fin s)) ∧
    RejectsBadP (invsf · (fin a) (fin b) (fin c) (fin loc) (fin s)) := by
  constructor <;> intro p hp <;> simp [invcdf, invsf, validateP_bad hp]

/-- C07, for `x` in the support. -/
theorem validates {x : ℝ} (hx : loc ≤ x) :
    ValidatesExactly (Valid a b c s) (cdf (fin x) (fin a) (fin b) (fin c) (fin loc) (fin s)) ∧
    ValidatesExactly (Valid a b c s) (sf (fin x) (fin a) (fin b) (fin c) (fin loc) (fin s)) ∧
    ValidatesExactly (Valid a b c s) (pdf (fin x) (fin a) (fin b) (fin c) (fin loc) (fin s)) ∧
    ValidatesExactly (Valid a b c s) (logpdf (fin x) (fin a) (fin b) (fin c) (fin loc) (fin s)) := by
  refine ⟨⟨fun h => ⟨_, cdf_eval h hx⟩, fun h => ?_⟩, ⟨fun h => ⟨_, sf_eval h hx⟩, fun h => ?_⟩,
    ⟨fun h => ⟨_, pdf_eval h hx⟩, fun h => ?_⟩, ⟨fun h => ⟨_, logpdf_eval h hx⟩, fun h => ?_⟩⟩ <;>
  simp [cdf, sf, pdf, logpdf, vx_bad h]

/-- C07 for the quantile functions. -/
theorem inv_validates {p : ℝ} (h0 : 0 < p) (h1 : p < 1) :
    ValidatesExactly (Valid a b c s) (invcdf (fin p) (fin a) (fin b) (fin c) (fin loc) (fin s)) ∧
    ValidatesExactly (Valid a b c s) (invsf (fin p) (fin a) (fin b) (fin c) (fin loc) (fin s)) := by
  refine ⟨⟨fun h => ?_, fun h => ?_⟩, ⟨fun h => ?_, fun h => ?_⟩⟩
  · obtain ⟨x, -, e, -⟩ := invcdf_spec (loc := loc) h h0 h1; exact ⟨_, e⟩
  · simp [invcdf, validateP_ok h0.le h1.le, validate_bad h]
  · obtain ⟨x, -, e, -⟩ := invsf_spec (loc := loc) h h0 h1; exact ⟨_, e⟩
  · simp [invsf, validateP_ok h0.le h1.le, validate_bad h]

/-- C08 -/
theorem locScale (ha : 0 < a) (hb : 0 < b) (hc : 0 < c) :
    LocScaleInvariant (fun x loc s => cdf x (fin a) (fin b) (fin c) loc s) ∧
    LocScaleInvariant (fun x loc s => sf x (fin a) (fin b) (fin c) loc s) ∧
    LocScaleDensity (fun x loc s => pdf x (fin a) (fin b) (fin c) loc s) := by
  have key : ∀ x loc s : ℝ, 0 < s → (x < loc ∧ (x - loc) / s < 0) ∨ (loc ≤ x ∧ 0 ≤ (x - loc) / s) := fun x loc s hs => by
    rcases lt_or_ge x loc with h | h
    · exact .inl ⟨h, div_neg_of_neg_of_pos (by linarith) hs⟩
    · exact .inr ⟨h, z_nonneg hs h⟩
  refine ⟨fun x loc s hs => ?_, fun x loc s hs => ?_, fun x loc s hs => ?_⟩ <;>
  rcases key x loc s hs with ⟨h, h'⟩ | ⟨h, h'⟩ <;> simp only [zero_def, one_def]
  · rw [(raises_left h).1, (raises_left h').1]
  · rw [cdf_eval ⟨ha, hb, hc, hs⟩ h, cdf_eval ⟨ha, hb, hc, one_pos⟩ h', sub_zero, div_one]
  · rw [(raises_left h).2.1, (raises_left h').2.1]
  · rw [sf_eval ⟨ha, hb, hc, hs⟩ h, sf_eval ⟨ha, hb, hc, one_pos⟩ h', sub_zero, div_one]
  · rw [(raises_left h).2.2.1, (raises_left h').2.2.1]; rfl
  · rw [pdf_eval ⟨ha, hb, hc, hs⟩ h, pdf_eval ⟨ha, hb, hc, one_pos⟩ h', sub_zero, div_one, div_one, ok_bind,
      fin_div _ hs.ne']

/-- C41 -/
theorem endPoints (h : Valid a b c s) :
    EndPoints (invcdf · (fin a) (fin b) (fin c) (fin loc) (fin s)) (fin loc) pinf ∧
    EndPoints (fun p => invsf p (fin a) (fin b) (fin c) (fin loc) (fin s)) pinf (fin loc) := by
  have hab : 0 < a + b := by linarith [h.1, h.2.1]
  have hr : 0 < b / (a + b) := div_pos h.2.1 hab
  have hl : mp.lambertw (fin 0) = .ok (fin 0) := by simpa using mp.lambertw_eval (w := 0) (by norm_num)
  have h0 := solve_eval h le_rfl
  simp only [H_zero, neg_zero, zero_div, sub_zero, zero_sub] at h0
  have hc := h.2.2.1.ne'
  have hll : mp.log1p (fin (-1)) = .ok ninf := mp.log1p_neg_one
  refine ⟨⟨?_, ?_⟩, ⟨?_, ?_⟩⟩
  · simp only [invcdf, zero_def, validateP_ok le_rfl zero_le_one, validate_ok h, ok_bind, fin_add, fin_div _ hab.ne',
      fin_div _ hc, neg_fin, neg_zero, mp_log1p_zero, zero_div, fin_sub, sub_zero, fin_mul, mp.exp_fin, h0, pure_eq_ok]
    congr 2; field_simp; ring
  · simp [invcdf, validateP_ok, validate_ok h, fin_div _ hab.ne', fin_div _ hc, hll, ninf_div_pos hab, hl,
      scaleInf_pos h.2.2.1, scaleInf_pos h.2.2.2]
  · simp [invsf, validateP_ok, validate_ok h, fin_div _ hab.ne', fin_div _ hc, mp.log_zero, ninf_div_pos hab, hl,
      scaleInf_pos h.2.2.1, scaleInf_pos h.2.2.2]
  · simp only [invsf, one_def, validateP_ok zero_le_one le_rfl, validate_ok h, ok_bind, fin_add, fin_div _ hab.ne',
      fin_div _ hc, neg_fin, mp_log_one, zero_div, fin_sub, sub_zero, fin_mul, mp.exp_fin, h0, pure_eq_ok]
    congr 2; field_simp; ring

theorem support_eq (h : Valid a b c s) : support (fin a) (fin b) (fin c) (fin loc) (fin s) = .ok (fin loc, pinf) := by
  simp [support, validate_ok h]

/-- C48 at `+inf`. Missing: `-inf`, where the functions raise (`atNegInf_fails`). -/
theorem atInfinity_partial (h : Valid a b c s) : cdf pinf (fin a) (fin b) (fin c) (fin loc) (fin s) = .ok 1 ∧
    sf pinf (fin a) (fin b) (fin c) (fin loc) (fin s) = .ok 0 := by
  have hab : 0 < a + b := by linarith [h.1, h.2.1]
  constructor <;>
  simp [cdf, sf, validateXParams, validate_ok h, pinf_div_pos h.2.2.2, fin_div _ h.2.2.1.ne',
    scaleInf_neg (show -c < 0 by linarith [h.2.2.1]), scaleInf_neg (show -b + -a < 0 by linarith)]

/-- C48 fails at `-inf`: the functions raise. -/
theorem atNegInf_fails (h : Valid a b c s) :
    cdf ninf (fin a) (fin b) (fin c) (fin loc) (fin s) = .error .valueError ∧
    sf ninf (fin a) (fin b) (fin c) (fin loc) (fin s) = .error .valueError := by
  constructor <;> simp [cdf, sf, validateXParams, validate_ok h]

/-- Non-vacuity: admissible parameters, and a point of the support. -/
example : Valid 1 2 3 4 ∧ cdf 5 1 2 3 5 4 = .ok 0 := by
  have h : Valid 1 2 3 4 := ⟨by norm_num, by norm_num, by norm_num, by norm_num⟩
  refine ⟨h, (cdf_eval (loc := 5) h le_rfl).trans ?_⟩
  simp [F]

end Mpsci.genexpon
