import Verif.Lemmas.Dist.WeibullMax
import Verif.Props.Dist.WeibullMin

/-! Properties of `weibull_max`. -/

namespace Mpsci.weibull_max

open Classical Num Spec weibull_common common Filter Topology Set

variable {k loc s : ℝ}

/-- C11: pdf, logpdf, cdf and sf of weibull_max are those of weibull_min at `-x`, `-loc`; this
includes the error cases (`k`, `scale` arbitrary). -/
theorem mirror (x : ℝ) :
    pdf (fin x) (fin k) (fin loc) (fin s)
      = weibull_min.pdf (fin (-x)) (fin k) (fin (-loc)) (fin s) ∧
    logpdf (fin x) (fin k) (fin loc) (fin s)
      = weibull_min.logpdf (fin (-x)) (fin k) (fin (-loc)) (fin s) ∧
    cdf (fin x) (fin k) (fin loc) (fin s)
      = weibull_min.sf (fin (-x)) (fin k) (fin (-loc)) (fin s) ∧
    sf (fin x) (fin k) (fin loc) (fin s)
      = weibull_min.cdf (fin (-x)) (fin k) (fin (-loc)) (fin s) :=
  ⟨pdf_mirror x, logpdf_mirror x, cdf_mirror x, sf_mirror x⟩

/-- C11: quantiles, mode, mean and variance -/
theorem mirror_quantile {p : ℝ} (hk : 0 < k) (hs : 0 < s) (h0 : 0 < p) (h1 : p < 1) :
    (∃ x : ℝ, invcdf (fin p) (fin k) (fin loc) (fin s) = .ok (fin x) ∧
      weibull_min.invsf (fin p) (fin k) (fin (-loc)) (fin s) = .ok (fin (-x))) ∧
    (∃ x : ℝ, invsf (fin p) (fin k) (fin loc) (fin s) = .ok (fin x) ∧
      weibull_min.invcdf (fin p) (fin k) (fin (-loc)) (fin s) = .ok (fin (-x))) :=
  ⟨⟨_, invcdf_eval hk hs h0 h1, by rw [weibull_min.invsf_eval hk hs h0 h1, neg_neg]⟩,
   ⟨_, invsf_eval hk hs h0 h1, by rw [weibull_min.invcdf_eval hk hs h0 h1, neg_neg]⟩⟩

theorem mirror_mode_mean_var (hk : 0 < k) (hs : 0 < s) :
    (∃ m : ℝ, mode (fin k) (fin loc) (fin s) = .ok (fin m) ∧
      weibull_min.mode (fin k) (fin (-loc)) (fin s) = .ok (fin (-m))) ∧
    (∃ m : ℝ, mean (fin k) (fin loc) (fin s) = .ok (fin m) ∧
      weibull_min.mean (fin k) (fin (-loc)) (fin s) = .ok (fin (-m))) ∧
    var (fin k) (fin loc) (fin s) = weibull_min.var (fin k) (fin (-loc)) (fin s) := by
  have h1 : (0:ℝ) < 1 + k⁻¹ := by positivity
  refine ⟨?_, ?_, by simp only [var, weibull_min.var, validate_ok _ hk hs, ok_bind]⟩
  · by_cases hk1 : 1 < k
    · have hc : 0 < (k - 1) / k := div_pos (by linarith) hk
      refine ⟨loc - s * ((k - 1) / k) ^ (1 / k), ?_, ?_⟩
      · simp [mode, validate_ok _ hk hs, hk1, fin_div _ hk.ne', mp.power_pos hc]
      · simp [weibull_min.mode, validate_ok _ hk hs, hk1, fin_div _ hk.ne', mp.power_pos hc]
        ring
    · exact ⟨loc, by simp [mode, validate_ok _ hk hs, hk1],
        by simp [weibull_min.mode, validate_ok _ hk hs, hk1]⟩
  · refine ⟨loc - s * Real.Gamma (1 + 1 / k), ?_, ?_⟩
    · simp [mean, validate_ok _ hk hs, fin_div _ hk.ne', mp.gamma_pos h1]
    · simp [weibull_min.mean, validate_ok _ hk hs, fin_div _ hk.ne', mp.gamma_pos h1]
      ring

/-- C01 -/
theorem complementary (hk : 0 < k) (hs : 0 < s) :
    Complementary (cdf · (fin k) (fin loc) (fin s)) (sf · (fin k) (fin loc) (fin s)) := by
  intro x
  obtain ⟨c, s', h1, h2, h3⟩ := weibull_min.complementary (loc := -loc) hk hs (-x)
  exact ⟨s', c, (cdf_mirror x).trans h2, (sf_mirror x).trans h1, by linarith⟩

theorem cdf_eval (hk : 0 < k) (hs : 0 < s) (x : ℝ) : cdf (fin x) (fin k) (fin loc) (fin s)
    = .ok (fin (1 - weibull_min.F k (-loc) s (-x))) := by
  rw [cdf_mirror, weibull_min.sf_eval hk hs]

/-- C02 -/
theorem isCdf (hk : 0 < k) (hs : 0 < s) : IsCdf (cdf · (fin k) (fin loc) (fin s)) :=
  (isDist hk hs).isCdf (cdf_eval hk hs)

/-- C03 -/
theorem isDensity (hk : 0 < k) (hs : 0 < s) :
    IsDensity {x | x = loc ∧ k < 1} (Iic loc)
      (pdf · (fin k) (fin loc) (fin s)) (cdf · (fin k) (fin loc) (fin s)) := by
  refine (isDist hk hs).isDensity (fun x hx => ?_) (cdf_eval hk hs) ?_
  · simp only [pdf_mirror]
    refine weibull_min.pdf_eval hk hs fun h => ?_
    by_contra h'; exact hx ⟨neg_inj.1 h, not_le.1 h'⟩
  · intro x hx
    have : loc < x := by simpa using hx
    simp [weibull_min.f, this.le, this.ne']

/-- C04 -/
theorem isLogOf (hk : 0 < k) (hs : 0 < s) :
    IsLogOf {x | x = loc ∧ k < 1} (pdf · (fin k) (fin loc) (fin s))
      (logpdf · (fin k) (fin loc) (fin s)) := by
  intro x hx
  obtain ⟨r, h0, h1, h2⟩ := weibull_min.isLogOf (loc := -loc) hk hs (-x)
    (fun h => hx ⟨neg_inj.1 h.1, h.2⟩)
  exact ⟨r, h0, (pdf_mirror x).trans h1, (logpdf_mirror x).trans h2⟩

/-- C05 -/
theorem inverts_cdf (hk : 0 < k) (hs : 0 < s) :
    Inverts (Iio loc) (cdf · (fin k) (fin loc) (fin s)) (invcdf · (fin k) (fin loc) (fin s)) := by
  refine inverts_of (fun x _ => cdf_eval hk hs x) (fun _ => invcdf_eval hk hs) ?_ ?_
  · intro p h0 h1
    obtain ⟨a, b⟩ := weibull_min.F_Q (loc := -loc) hk hs (p := 1 - p) (by linarith) (by linarith)
    have a' : -loc < _ := a
    exact ⟨by simp only [mem_Iio]; linarith, by rw [neg_neg, b]; ring⟩
  · intro x hx
    obtain ⟨a, b, c⟩ := weibull_min.Q_F (loc := -loc) hk hs (x := -x) (by simpa using hx)
    exact ⟨by linarith, by linarith, by rw [sub_sub_cancel, c, neg_neg]⟩

/-- C05 -/
theorem inverts_sf (hk : 0 < k) (hs : 0 < s) :
    Inverts (Iio loc) (sf · (fin k) (fin loc) (fin s)) (invsf · (fin k) (fin loc) (fin s)) := by
  refine inverts_of (F := fun x => weibull_min.F k (-loc) s (-x)) (fun x _ => ?_)
    (fun _ => invsf_eval hk hs) ?_ ?_
  · rw [sf_mirror, weibull_min.cdf_eval hk hs]
  · intro p h0 h1
    obtain ⟨a, b⟩ := weibull_min.F_Q (loc := -loc) hk hs h0 h1
    have a' : -loc < _ := a
    exact ⟨by simp only [mem_Iio]; linarith, by rw [neg_neg, b]⟩
  · intro x hx
    obtain ⟨a, b, c⟩ := weibull_min.Q_F (loc := -loc) hk hs (x := -x) (by simpa using hx)
    exact ⟨a, b, by rw [c, neg_neg]⟩

/-- C06 -/
theorem rejects_p : RejectsBadP (invcdf · (fin k) (fin loc) (fin s)) ∧
    RejectsBadP (invsf · (fin k) (fin loc) (fin s)) := by
  constructor <;> intro p hp <;> simp [invcdf, invsf, validateP_bad hp]

/-- C07 -/
theorem validates (x : ℝ) :
    ValidatesExactly (0 < k ∧ 0 < s) (cdf (fin x) (fin k) (fin loc) (fin s)) ∧
    ValidatesExactly (0 < k ∧ 0 < s) (sf (fin x) (fin k) (fin loc) (fin s)) ∧
    ValidatesExactly (0 < k ∧ 0 < s) (pdf (fin x) (fin k) (fin loc) (fin s)) ∧
    ValidatesExactly (0 < k ∧ 0 < s) (logpdf (fin x) (fin k) (fin loc) (fin s)) := by
  obtain ⟨a, b, c, d⟩ := weibull_min.validates (k := k) (loc := -loc) (s := s) (-x)
  rw [cdf_mirror, sf_mirror, pdf_mirror, logpdf_mirror]
  exact ⟨b, a, c, d⟩

/-- C08 -/
theorem locScale (hk : 0 < k) :
    LocScaleInvariant (fun x loc s => cdf x (fin k) loc s) ∧
    LocScaleInvariant (fun x loc s => sf x (fin k) loc s) ∧
    LocScaleDensity (fun x loc s => pdf x (fin k) loc s) := by
  obtain ⟨a, b, c⟩ := weibull_min.locScale hk
  refine ⟨fun x loc s hs => ?_, fun x loc s hs => ?_, fun x loc s hs => ?_⟩
  · simp only [zero_def, one_def, cdf_mirror]
    have := b (-x) (-loc) s hs
    simp only [neg_affine, zero_def, one_def] at this
    rw [this, neg_zero]
  · simp only [zero_def, one_def, sf_mirror]
    have := a (-x) (-loc) s hs
    simp only [neg_affine, zero_def, one_def] at this
    rw [this, neg_zero]
  · simp only [zero_def, one_def, pdf_mirror]
    have := c (-x) (-loc) s hs
    simp only [neg_affine, zero_def, one_def] at this
    rw [this, neg_zero]

/-- C09 -/
theorem isMode (hk : 1 ≤ k) (hs : 0 < s) :
    IsMode ∅ (pdf · (fin k) (fin loc) (fin s)) (mode (fin k) (fin loc) (fin s)) := by
  obtain ⟨m, v, h1, h2, h3⟩ := weibull_min.isMode (loc := -loc) hk hs
  obtain ⟨⟨m', e1, e2⟩, -⟩ := mirror_mode_mean_var (loc := loc) (show 0 < k by linarith) hs
  have hm : m = -m' := by rw [h1] at e2; simpa using e2
  refine ⟨m', v, e1, ?_, fun y hy => ?_⟩
  · simp only [pdf_mirror, ← hm]; exact h2
  · simp only [pdf_mirror]; exact h3 (-y) (by simp)

/-- C41 -/
theorem endPoints (hk : 0 < k) (hs : 0 < s) :
    EndPoints (invcdf · (fin k) (fin loc) (fin s)) ninf (fin loc) ∧
    EndPoints (invsf · (fin k) (fin loc) (fin s)) (fin loc) ninf := by
  have h1 : mp.power (fin 0) (fin k⁻¹) = .ok (fin 0) := mp.power_zero_pos (by positivity)
  have h2 : mp.power pinf (fin k⁻¹) = .ok pinf := by simp [mp.power, hk]
  have h3 : mp.log1p (fin 0) = .ok (fin 0) := by rw [mp.log1p_pos (by norm_num)]; simp
  have h4 : mp.log (fin 1) = .ok (fin 0) := by rw [mp.log_pos (by norm_num)]; simp
  refine ⟨⟨?_, ?_⟩, ⟨?_, ?_⟩⟩
  · simp [invcdf, validateP_ok, validate_ok _ hk hs, fin_div _ hk.ne', h2, scaleInf_pos hs]
  · simp [invcdf, validateP_ok, validate_ok _ hk hs, h4, fin_div _ hk.ne', h1]
  · simp [invsf, validateP_ok, validate_ok _ hk hs, fin_div _ hk.ne', h1, h3]
  · simp [invsf, validateP_ok, validate_ok _ hk hs, fin_div _ hk.ne', h2, scaleInf_pos hs]

/-- C48 -/
theorem atInfinities (hk : 0 < k) (hs : 0 < s) :
    AtInfinities (cdf · (fin k) (fin loc) (fin s)) (sf · (fin k) (fin loc) (fin s)) := by
  simp [AtInfinities, cdf, sf, validate_ok _ hk hs, ninf_div_pos hs, mp.power, hk]

theorem support_eq (hk : 0 < k) (hs : 0 < s) :
    support (fin k) (fin loc) (fin s) = .ok (ninf, fin loc) := by
  simp [support, validate_ok _ hk hs]

/-- The hypotheses used above are met, e.g. by `k = 2, loc = 1, scale = 3`. -/
example : cdf (fin (-2)) (fin 2) (fin 1) (fin 3) = .ok (fin (Real.exp (-1))) := by
  rw [cdf_eval (by norm_num) (by norm_num)]; norm_num [weibull_min.F]

end Mpsci.weibull_max
