import Verif.Lemmas.Dist.Weibull
import Verif.Lemmas.Ineq
import Verif.Lemmas.Helpers

/-! Properties of `weibull_min`. -/

namespace Mpsci.weibull_min

open Classical Num Spec weibull_common common Filter Topology Set

variable {k loc s : ℝ}

/-- C01 -/
theorem complementary (hk : 0 < k) (hs : 0 < s) :
    Complementary (cdf · (fin k) (fin loc) (fin s)) (sf · (fin k) (fin loc) (fin s)) :=
  fun x => ⟨_, _, cdf_eval hk hs x, sf_eval hk hs x, by ring⟩

/-- C02 -/
theorem isCdf (hk : 0 < k) (hs : 0 < s) : IsCdf (cdf · (fin k) (fin loc) (fin s)) :=
  (isDist hk hs).isCdf (cdf_eval hk hs)

/-- C03; at `x = loc` the density is `+inf` for `k < 1` -/
theorem isDensity (hk : 0 < k) (hs : 0 < s) :
    IsDensity {x | x = loc ∧ k < 1} (Ici loc)
      (pdf · (fin k) (fin loc) (fin s)) (cdf · (fin k) (fin loc) (fin s)) := by
  refine (isDist hk hs).isDensity (fun x hx => pdf_eval hk hs fun h => ?_) (cdf_eval hk hs) ?_
  · by_contra h'; exact hx ⟨h, not_le.1 h'⟩
  · intro x hx
    have : x < loc := by simpa using hx
    simp [f, this.le, this.ne]

/-- C04 -/
theorem isLogOf (hk : 0 < k) (hs : 0 < s) :
    IsLogOf {x | x = loc ∧ k < 1} (pdf · (fin k) (fin loc) (fin s))
      (logpdf · (fin k) (fin loc) (fin s)) := by
  intro x hx
  have h : x = loc → 1 ≤ k := fun h => by
    by_contra h'; exact hx ⟨h, not_le.1 h'⟩
  exact ⟨_, (isDist hk hs).f_nonneg x, pdf_eval hk hs h, logpdf_eval hk hs h⟩

/-- C04, the excluded point: both are `+inf` -/
theorem pdf_logpdf_at_loc (hk : 0 < k) (hk1 : k < 1) (hs : 0 < s) :
    pdf (fin loc) (fin k) (fin loc) (fin s) = .ok pinf ∧
    logpdf (fin loc) (fin k) (fin loc) (fin s) = .ok pinf := by
  simp [pdf, logpdf, validate_ok _ hk hs, hk1]

/-- C05 -/
theorem inverts_cdf (hk : 0 < k) (hs : 0 < s) :
    Inverts (Ioi loc) (cdf · (fin k) (fin loc) (fin s)) (invcdf · (fin k) (fin loc) (fin s)) :=
  inverts_of (fun x _ => cdf_eval hk hs x) (fun _ => invcdf_eval hk hs)
    (fun _ => F_Q hk hs) (fun _ => Q_F hk hs)

/-- C05 -/
theorem inverts_sf (hk : 0 < k) (hs : 0 < s) :
    Inverts (Ioi loc) (sf · (fin k) (fin loc) (fin s)) (invsf · (fin k) (fin loc) (fin s)) :=
  inverts_compl (fun x _ => sf_eval hk hs x) (fun _ => invsf_eval hk hs)
    (fun _ => F_Q hk hs) (fun _ => Q_F hk hs)

/-- C06 -/
theorem rejects_p : RejectsBadP (invcdf · (fin k) (fin loc) (fin s)) ∧
    RejectsBadP (invsf · (fin k) (fin loc) (fin s)) := by
  constructor <;> intro p hp <;> simp [invcdf, invsf, validateP_bad hp]

/-- C07 -/
theorem validates (x : ℝ) :
    ValidatesExactly (0 < k ∧ 0 < s) (cdf (fin x) (fin k) (fin loc) (fin s)) ∧
    ValidatesExactly (0 < k ∧ 0 < s) (sf (fin x) (fin k) (fin loc) (fin s)) ∧
    ValidatesExactly (0 < k ∧ 0 < s) (pdf (fin x) (fin k) (fin loc) (fin s)) ∧
    ValidatesExactly (0 < k ∧ 0 < s) (logpdf (fin x) (fin k) (fin loc) (fin s)) := by
  refine ⟨⟨fun h => ⟨_, cdf_eval h.1 h.2 x⟩, fun h => ?_⟩, ⟨fun h => ⟨_, sf_eval h.1 h.2 x⟩, fun h => ?_⟩,
    ⟨fun h => ?_, fun h => ?_⟩, ⟨fun h => ?_, fun h => ?_⟩⟩
  · simp [cdf, validate_bad _ (not_and_pos h)]
  · simp [sf, validate_bad _ (not_and_pos h)]
  · by_cases hx : x = loc ∧ k < 1
    · rw [hx.1]; exact ⟨_, (pdf_logpdf_at_loc h.1 hx.2 h.2).1⟩
    · exact ⟨_, pdf_eval h.1 h.2 fun h => by by_contra h'; exact hx ⟨h, not_le.1 h'⟩⟩
  · simp [pdf, validate_bad _ (not_and_pos h)]
  · by_cases hx : x = loc ∧ k < 1
    · rw [hx.1]; exact ⟨_, (pdf_logpdf_at_loc h.1 hx.2 h.2).2⟩
    · exact ⟨_, logpdf_eval h.1 h.2 fun h => by by_contra h'; exact hx ⟨h, not_le.1 h'⟩⟩
  · simp [logpdf, validate_bad _ (not_and_pos h)]

/-- C08 -/
theorem locScale (hk : 0 < k) :
    LocScaleInvariant (fun x loc s => cdf x (fin k) loc s) ∧
    LocScaleInvariant (fun x loc s => sf x (fin k) loc s) ∧
    LocScaleDensity (fun x loc s => pdf x (fin k) loc s) := by
  have hF : ∀ x loc s : ℝ, 0 < s → F k loc s x = F k 0 1 ((x - loc) / s) := fun x loc s hs => by
    simp [F, affine_le_zero hs]
  refine ⟨fun x loc s hs => ?_, fun x loc s hs => ?_, fun x loc s hs => ?_⟩
  · simp only [zero_def, one_def, cdf_eval hk hs, cdf_eval hk one_pos, hF x loc s hs]
  · simp only [zero_def, one_def, sf_eval hk hs, sf_eval hk one_pos, hF x loc s hs]
  · simp only [zero_def, one_def]
    by_cases hx : x = loc ∧ k < 1
    · rw [hx.1, (pdf_logpdf_at_loc hk hx.2 hs).1]
      simp only [sub_self, zero_div, (pdf_logpdf_at_loc hk hx.2 one_pos).1]
      simp [pinf_div_pos hs]
    · have h : x = loc → 1 ≤ k := fun h => by by_contra h'; exact hx ⟨h, not_le.1 h'⟩
      rw [pdf_eval hk hs h, pdf_eval hk one_pos (fun h' => h ((affine_eq_zero hs).1 h'))]
      simp only [ok_bind, fin_div _ hs.ne', f, affine_le_zero hs, affine_eq_zero hs, sub_zero,
        div_one]
      congr 2
      split_ifs <;> first | rfl | simp | ring

/-- C09 (for `k < 1` the density is unbounded near `loc`, so there is no maximiser) -/
theorem isMode (hk : 1 ≤ k) (hs : 0 < s) :
    IsMode ∅ (pdf · (fin k) (fin loc) (fin s)) (mode (fin k) (fin loc) (fin s)) := by
  have hk0 : 0 < k := by linarith
  have hpdf : ∀ x, pdf (fin x) (fin k) (fin loc) (fin s) = .ok (fin (f k loc s x)) :=
    fun x => pdf_eval hk0 hs fun _ => hk
  rcases hk.eq_or_lt with rfl | hk1
  · refine ⟨loc, _, by simp [mode, validate_ok _ hk0 hs], hpdf _, fun y _ => ⟨_, hpdf y, ?_⟩⟩
    simp only [f]
    rcases lt_trichotomy y loc with h | h | h
    · simp [h.le, h.ne, hs.le]
    · simp [h]
    · have : 0 < (y - loc) / s := div_pos (by linarith) hs
      simp only [h.not_ge, if_false, le_refl, if_true, sub_self, Real.rpow_zero, mul_one,
        Real.rpow_one, and_self]
      have h1 : Real.exp (-((y - loc) / s)) ≤ 1 := Real.exp_le_one_iff.2 (by linarith)
      have h2 : 0 < 1 / s := by positivity
      nlinarith
  · set c := (k - 1) / k with hc
    have hc0 : 0 < c := div_pos (by linarith) hk0
    have hck : c * k = k - 1 := by rw [hc]; field_simp
    have hm : mode (fin k) (fin loc) (fin s) = .ok (fin (loc + s * c ^ (1 / k))) := by
      simp [mode, validate_ok _ hk0 hs, hk1, fin_div _ hk0.ne', mp.power_pos hc0, ← hc]
    have hgt : loc < loc + s * c ^ (1 / k) := by
      have : 0 < s * c ^ (1 / k) := by positivity
      linarith
    have hform : ∀ z : ℝ, 0 < z → z ^ (k - 1) * Real.exp (-z ^ k)
        = (z ^ k) ^ c * Real.exp (-z ^ k) := by
      intro z hz
      rw [← Real.rpow_mul hz.le, mul_comm k c, hck]
    have hcc : (c ^ (1 / k)) ^ k = c := by
      rw [← Real.rpow_mul hc0.le, one_div, inv_mul_cancel₀ hk0.ne', Real.rpow_one]
    refine ⟨_, _, hm, hpdf _, fun y _ => ⟨_, hpdf y, ?_⟩⟩
    have hval : f k loc s (loc + s * c ^ (1 / k)) = k / s * (c ^ c * Real.exp (-c)) := by
      rw [f, if_neg hgt.not_ge, add_sub_cancel_left, mul_div_cancel_left₀ _ hs.ne', mul_assoc,
        hform _ (by positivity), hcc]
    rw [hval]
    by_cases h : y ≤ loc
    · have : f k loc s y = 0 := by simp [f, h, hk1.ne']
      rw [this]; positivity
    · have hz : 0 < (y - loc) / s := div_pos (by linarith) hs
      rw [f, if_neg h, mul_assoc, hform _ hz]
      have := rpow_mul_exp_neg_le hc0.le (u := ((y - loc) / s) ^ k) (by positivity)
      gcongr

/-- C41 -/
theorem endPoints (hk : 0 < k) (hs : 0 < s) :
    EndPoints (invcdf · (fin k) (fin loc) (fin s)) (fin loc) pinf ∧
    EndPoints (invsf · (fin k) (fin loc) (fin s)) pinf (fin loc) := by
  have h1 : mp.power (fin 0) (fin k⁻¹) = .ok (fin 0) := mp.power_zero_pos (by positivity)
  have h2 : mp.power pinf (fin k⁻¹) = .ok pinf := by simp [mp.power, hk]
  have h3 : mp.log1p (fin 0) = .ok (fin 0) := by rw [mp.log1p_pos (by norm_num)]; simp
  have h4 : mp.log (fin 1) = .ok (fin 0) := by rw [mp.log_pos (by norm_num)]; simp
  refine ⟨⟨?_, ?_⟩, ⟨?_, ?_⟩⟩
  · simp [invcdf, validateP_ok, validate_ok _ hk hs, h3, fin_div _ hk.ne', h1]
  · simp [invcdf, validateP_ok, validate_ok _ hk hs, fin_div _ hk.ne', h2, scaleInf_pos hs]
  · simp [invsf, validateP_ok, validate_ok _ hk hs, fin_div _ hk.ne', h2, scaleInf_pos hs]
  · simp [invsf, validateP_ok, validate_ok _ hk hs, fin_div _ hk.ne', h1, h4]

/-- C48 -/
theorem atInfinities (hk : 0 < k) (hs : 0 < s) :
    AtInfinities (cdf · (fin k) (fin loc) (fin s)) (sf · (fin k) (fin loc) (fin s)) := by
  simp [AtInfinities, cdf, sf, validate_ok _ hk hs, pinf_div_pos hs, mp.power, hk]

/-- C07 for `support`, which is the set where the density lives -/
theorem support_eq (hk : 0 < k) (hs : 0 < s) :
    support (fin k) (fin loc) (fin s) = .ok (fin loc, pinf) := by
  simp [support, validate_ok _ hk hs]

/-- The hypotheses used above are met, e.g. by `k = 2, loc = -1, scale = 3`. -/
example : (0:ℝ) < 2 ∧ (1:ℝ) ≤ 2 ∧ (0:ℝ) < 3 := by norm_num

/-- A concrete instance: `cdf(2; 2, -1, 3) = 1 - exp(-1)`. -/
example : cdf (fin 2) (fin 2) (fin (-1)) (fin 3) = .ok (fin (1 - Real.exp (-1))) := by
  rw [cdf_eval (by norm_num) (by norm_num)]; norm_num [F]

end Mpsci.weibull_min
