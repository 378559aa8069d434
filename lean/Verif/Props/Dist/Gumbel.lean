import Verif.Lemmas.Dist.Gumbel

/-! Properties of `gumbel_max` and `gumbel_min`. -/

namespace Mpsci.gumbel_max

open Classical Num Spec common Filter Topology Set

variable {loc s : ℝ}

/-- C01 -/
theorem complementary (hs : 0 < s) :
    Complementary (cdf · (fin loc) (fin s)) (sf · (fin loc) (fin s)) :=
  complementary_of (cdf_eval hs) (sf_eval hs)

/-- C02 -/
theorem isCdf (hs : 0 < s) : IsCdf (cdf · (fin loc) (fin s)) := (isDist hs).isCdf (cdf_eval hs)

/-- C03 -/
theorem isDensity (hs : 0 < s) :
    IsDensity ∅ univ (pdf · (fin loc) (fin s)) (cdf · (fin loc) (fin s)) :=
  (isDist hs).isDensity (fun x _ => pdf_eval hs x) (cdf_eval hs) (by simp)

/-- C04 -/
theorem isLogOf (hs : 0 < s) :
    IsLogOf ∅ (pdf · (fin loc) (fin s)) (logpdf · (fin loc) (fin s)) :=
  isLogOf_pos (fun _ _ => div_pos (f_pos _) hs) (fun x _ => pdf_eval hs x)
    (fun x _ => logpdf_eval hs x)

/-- C05 -/
theorem inverts_cdf (hs : 0 < s) :
    Inverts univ (cdf · (fin loc) (fin s)) (invcdf · (fin loc) (fin s)) :=
  inverts_affine hs (fun x _ => cdf_eval hs x) (fun _ => invcdf_eval hs) (fun _ => F_Q)
    (fun _ _ => Q_F)

/-- C05 -/
theorem inverts_sf (hs : 0 < s) :
    Inverts univ (sf · (fin loc) (fin s)) (invsf · (fin loc) (fin s)) :=
  inverts_affine_compl hs (fun x _ => sf_eval hs x) (fun _ => invsf_eval hs) (fun _ => F_Q)
    (fun _ _ => Q_F)

/-- C06 -/
theorem rejects_p : RejectsBadP (invcdf · (fin loc) (fin s)) ∧
    RejectsBadP (invsf · (fin loc) (fin s)) := by
  by_cases hs : 0 < s
  · constructor <;> intro p hp <;>
      simp [invcdf, invsf, validateP_bad hp, validateLocScale_ok _ hs]
  · constructor <;> intro p hp <;> simp [invcdf, invsf, validateLocScale_bad _ (not_lt.1 hs)]

/-- C07 -/
theorem validates (x : ℝ) :
    ValidatesExactly (0 < s) (cdf (fin x) (fin loc) (fin s)) ∧
    ValidatesExactly (0 < s) (sf (fin x) (fin loc) (fin s)) ∧
    ValidatesExactly (0 < s) (pdf (fin x) (fin loc) (fin s)) ∧
    ValidatesExactly (0 < s) (logpdf (fin x) (fin loc) (fin s)) := by
  refine ⟨⟨fun h => ⟨_, cdf_eval h x⟩, fun h => ?_⟩, ⟨fun h => ⟨_, sf_eval h x⟩, fun h => ?_⟩,
    ⟨fun h => ⟨_, pdf_eval h x⟩, fun h => ?_⟩, ⟨fun h => ⟨_, logpdf_eval h x⟩, fun h => ?_⟩⟩ <;>
  simp [cdf, sf, pdf, logpdf, validateLocScale_bad _ (not_lt.1 h)]

/-- C08 -/
theorem locScale : LocScaleInvariant cdf ∧ LocScaleInvariant sf ∧ LocScaleDensity pdf :=
  ⟨locScale_of_std fun x _ _ hs => cdf_eval hs x,
   locScale_of_std (G := fun z => 1 - F z) fun x _ _ hs => sf_eval hs x,
   locScaleDensity_of_std fun x _ _ hs => pdf_eval hs x⟩

/-- C09 -/
theorem isMode (hs : 0 < s) : IsMode ∅ (pdf · (fin loc) (fin s)) (mode (fin loc) (fin s)) := by
  refine ⟨loc, _, by simp [mode, validateLocScale_ok _ hs], pdf_eval hs loc,
    fun y _ => ⟨_, pdf_eval hs y, ?_⟩⟩
  have h : ∀ z, f z ≤ f 0 := by
    intro z
    simp only [f, Real.exp_le_exp]
    have := Real.add_one_le_exp (-z)
    simp; linarith
  rw [sub_self, zero_div]
  gcongr
  exact h _

/-- C41 -/
theorem endPoints (hs : 0 < s) :
    EndPoints (invcdf · (fin loc) (fin s)) ninf pinf ∧
    EndPoints (invsf · (fin loc) (fin s)) pinf ninf := by
  have h3 : mp.log1p (fin 0) = .ok (fin 0) := by rw [mp.log1p_pos (by norm_num)]; simp
  have h4 : mp.log (fin 1) = .ok (fin 0) := by rw [mp.log_pos (by norm_num)]; simp
  refine ⟨⟨?_, ?_⟩, ⟨?_, ?_⟩⟩ <;>
  simp [invcdf, invsf, validateP_ok, validateLocScale_ok _ hs, h3, h4, scaleInf_pos hs]

/-- C48 -/
theorem atInfinities (hs : 0 < s) :
    AtInfinities (cdf · (fin loc) (fin s)) (sf · (fin loc) (fin s)) := by
  simp [AtInfinities, cdf, sf, validateLocScale_ok _ hs, pinf_div_pos hs, ninf_div_pos hs]

theorem support_eq (hs : 0 < s) : support (fin loc) (fin s) = .ok (ninf, pinf) := by
  simp [support, validateLocScale_ok _ hs]

/-- Non-vacuity: `loc = 2`, `scale = 3` is admissible; `cdf(2) = exp(-1)`. -/
example : (0:ℝ) < 3 ∧ cdf (fin 2) (fin 2) (fin 3) = .ok (fin (Real.exp (-1))) := by
  refine ⟨by norm_num, ?_⟩
  rw [cdf_eval (by norm_num)]; simp [F]

end Mpsci.gumbel_max

namespace Mpsci.gumbel_min

open Classical Num Spec common Filter Topology Set

variable {loc s : ℝ}

/-- C11 (also in the error cases) -/
theorem mirror (x : ℝ) :
    pdf (fin x) (fin loc) (fin s) = gumbel_max.pdf (fin (-x)) (fin (-loc)) (fin s) ∧
    logpdf (fin x) (fin loc) (fin s) = gumbel_max.logpdf (fin (-x)) (fin (-loc)) (fin s) ∧
    cdf (fin x) (fin loc) (fin s) = gumbel_max.sf (fin (-x)) (fin (-loc)) (fin s) ∧
    sf (fin x) (fin loc) (fin s) = gumbel_max.cdf (fin (-x)) (fin (-loc)) (fin s) :=
  ⟨pdf_mirror x, logpdf_mirror x, cdf_mirror x, sf_mirror x⟩

/-- C11 -/
theorem mirror_quantile {p : ℝ} (hs : 0 < s) (h0 : 0 < p) (h1 : p < 1) :
    (∃ x : ℝ, invcdf (fin p) (fin loc) (fin s) = .ok (fin x) ∧
      gumbel_max.invsf (fin p) (fin (-loc)) (fin s) = .ok (fin (-x))) ∧
    (∃ x : ℝ, invsf (fin p) (fin loc) (fin s) = .ok (fin x) ∧
      gumbel_max.invcdf (fin p) (fin (-loc)) (fin s) = .ok (fin (-x))) := by
  refine ⟨⟨_, invcdf_eval hs h0 h1, ?_⟩, ⟨_, invsf_eval hs h0 h1, ?_⟩⟩
  · rw [gumbel_max.invsf_eval hs h0 h1]; congr 2; ring
  · rw [gumbel_max.invcdf_eval hs h0 h1]; congr 2; ring

/-- C11 -/
theorem mirror_mode_mean_var (hs : 0 < s) :
    (∃ m : ℝ, mode (fin loc) (fin s) = .ok (fin m) ∧
      gumbel_max.mode (fin (-loc)) (fin s) = .ok (fin (-m))) ∧
    (∃ m : ℝ, mean (fin loc) (fin s) = .ok (fin m) ∧
      gumbel_max.mean (fin (-loc)) (fin s) = .ok (fin (-m))) ∧
    var (fin loc) (fin s) = gumbel_max.var (fin (-loc)) (fin s) := by
  refine ⟨⟨loc, by simp [mode, validateLocScale_ok _ hs],
    by simp [gumbel_max.mode, validateLocScale_ok _ hs]⟩,
    ⟨loc - Real.eulerMascheroniConstant * s, by simp [mean, validateLocScale_ok _ hs], ?_⟩,
    by simp only [var, gumbel_max.var, validateLocScale_ok _ hs, ok_bind]⟩
  simp [gumbel_max.mean, validateLocScale_ok _ hs]; ring

/-- C01 -/
theorem complementary (hs : 0 < s) :
    Complementary (cdf · (fin loc) (fin s)) (sf · (fin loc) (fin s)) := by
  intro x
  obtain ⟨c, s', h1, h2, h3⟩ := gumbel_max.complementary (loc := -loc) hs (-x)
  exact ⟨s', c, (cdf_mirror x).trans h2, (sf_mirror x).trans h1, by linarith⟩

theorem cdf_eval (hs : 0 < s) (x : ℝ) : cdf (fin x) (fin loc) (fin s)
    = .ok (fin (1 - gumbel_max.F ((-x - -loc) / s))) := by
  rw [cdf_mirror, gumbel_max.sf_eval hs]

theorem isDist (hs : 0 < s) : IsDist (fun x => 1 - gumbel_max.F ((-x - -loc) / s))
    (fun x => gumbel_max.f ((-x - -loc) / s) / s) := (gumbel_max.isDist hs).reflect

/-- C02 -/
theorem isCdf (hs : 0 < s) : IsCdf (cdf · (fin loc) (fin s)) := (isDist hs).isCdf (cdf_eval hs)

/-- C03 -/
theorem isDensity (hs : 0 < s) :
    IsDensity ∅ univ (pdf · (fin loc) (fin s)) (cdf · (fin loc) (fin s)) :=
  (isDist hs).isDensity (fun x _ => (pdf_mirror x).trans (gumbel_max.pdf_eval hs _))
    (cdf_eval hs) (by simp)

/-- C04 -/
theorem isLogOf (hs : 0 < s) :
    IsLogOf ∅ (pdf · (fin loc) (fin s)) (logpdf · (fin loc) (fin s)) := fun x _ => by
  obtain ⟨r, h0, h1, h2⟩ := gumbel_max.isLogOf (loc := -loc) hs (-x) (by simp)
  exact ⟨r, h0, (pdf_mirror x).trans h1, (logpdf_mirror x).trans h2⟩

/-- C05 -/
theorem inverts_cdf (hs : 0 < s) :
    Inverts univ (cdf · (fin loc) (fin s)) (invcdf · (fin loc) (fin s)) := by
  refine inverts_affine (S := univ) (F := fun z => 1 - gumbel_max.F (-z)) hs
    (fun x _ => ?_) (fun _ => invcdf_eval hs) ?_ ?_
  · rw [cdf_eval hs, neg_affine]
  · intro p h0 h1
    refine ⟨trivial, ?_⟩
    rw [neg_neg, (gumbel_max.F_Q (p := 1 - p) (by linarith) (by linarith)).2]; ring
  · intro z _
    obtain ⟨a, b, c⟩ := gumbel_max.Q_F (z := -z)
    exact ⟨by linarith, by linarith, by rw [sub_sub_cancel, c, neg_neg]⟩

/-- C05 -/
theorem inverts_sf (hs : 0 < s) :
    Inverts univ (sf · (fin loc) (fin s)) (invsf · (fin loc) (fin s)) := by
  refine inverts_affine (S := univ) (F := fun z => gumbel_max.F (-z)) hs
    (fun x _ => ?_) (fun _ => invsf_eval hs) ?_ ?_
  · rw [sf_mirror, gumbel_max.cdf_eval hs, neg_affine]
  · intro p h0 h1
    exact ⟨trivial, by rw [neg_neg, (gumbel_max.F_Q h0 h1).2]⟩
  · intro z _
    obtain ⟨a, b, c⟩ := gumbel_max.Q_F (z := -z)
    exact ⟨a, b, by rw [c, neg_neg]⟩

/-- C06 -/
theorem rejects_p : RejectsBadP (invcdf · (fin loc) (fin s)) ∧
    RejectsBadP (invsf · (fin loc) (fin s)) := by
  by_cases hs : 0 < s
  · constructor <;> intro p hp <;>
      simp [invcdf, invsf, validateP_bad hp, validateLocScale_ok _ hs]
  · constructor <;> intro p hp <;> simp [invcdf, invsf, validateLocScale_bad _ (not_lt.1 hs)]

/-- C07 -/
theorem validates (x : ℝ) :
    ValidatesExactly (0 < s) (cdf (fin x) (fin loc) (fin s)) ∧
    ValidatesExactly (0 < s) (sf (fin x) (fin loc) (fin s)) ∧
    ValidatesExactly (0 < s) (pdf (fin x) (fin loc) (fin s)) ∧
    ValidatesExactly (0 < s) (logpdf (fin x) (fin loc) (fin s)) := by
  obtain ⟨a, b, c, d⟩ := gumbel_max.validates (loc := -loc) (s := s) (-x)
  rw [cdf_mirror, sf_mirror, pdf_mirror, logpdf_mirror]
  exact ⟨b, a, c, d⟩

/-- C08 -/
theorem locScale : LocScaleInvariant cdf ∧ LocScaleInvariant sf ∧ LocScaleDensity pdf := by
  refine ⟨locScale_of_std (G := fun z => 1 - gumbel_max.F (-z)) fun x _ _ hs => ?_,
   locScale_of_std (G := fun z => gumbel_max.F (-z)) fun x _ _ hs => ?_,
   locScaleDensity_of_std (f := fun z => gumbel_max.f (-z)) fun x _ _ hs => ?_⟩
  · rw [cdf_eval hs, neg_affine]
  · rw [sf_mirror, gumbel_max.cdf_eval hs, neg_affine]
  · rw [pdf_mirror, gumbel_max.pdf_eval hs, neg_affine]

/-- C09 -/
theorem isMode (hs : 0 < s) : IsMode ∅ (pdf · (fin loc) (fin s)) (mode (fin loc) (fin s)) := by
  obtain ⟨m, v, h1, h2, h3⟩ := gumbel_max.isMode (loc := -loc) hs
  obtain ⟨⟨m', e1, e2⟩, -⟩ := mirror_mode_mean_var (loc := loc) hs
  have hm : m = -m' := by rw [h1] at e2; simpa using e2
  refine ⟨m', v, e1, ?_, fun y hy => ?_⟩
  · simp only [pdf_mirror, ← hm]; exact h2
  · simp only [pdf_mirror]; exact h3 (-y) (by simp)

/-- C41 -/
theorem endPoints (hs : 0 < s) :
    EndPoints (invcdf · (fin loc) (fin s)) ninf pinf ∧
    EndPoints (invsf · (fin loc) (fin s)) pinf ninf := by
  have h3 : mp.log1p (fin 0) = .ok (fin 0) := by rw [mp.log1p_pos (by norm_num)]; simp
  have h4 : mp.log (fin 1) = .ok (fin 0) := by rw [mp.log_pos (by norm_num)]; simp
  refine ⟨⟨?_, ?_⟩, ⟨?_, ?_⟩⟩ <;>
  simp [invcdf, invsf, validateP_ok, validateLocScale_ok _ hs, h3, h4, scaleInf_pos hs]

/-- C48 -/
theorem atInfinities (hs : 0 < s) :
    AtInfinities (cdf · (fin loc) (fin s)) (sf · (fin loc) (fin s)) := by
  simp [AtInfinities, cdf, sf, validateLocScale_ok _ hs, pinf_div_pos hs, ninf_div_pos hs]

theorem support_eq (hs : 0 < s) : support (fin loc) (fin s) = .ok (ninf, pinf) := by
  simp [support, validateLocScale_ok _ hs]

example : (0:ℝ) < 3 ∧ sf (fin 2) (fin 2) (fin 3) = .ok (fin (Real.exp (-1))) := by
  refine ⟨by norm_num, ?_⟩
  rw [sf_mirror, gumbel_max.cdf_eval (by norm_num)]; simp [gumbel_max.F]

end Mpsci.gumbel_min
