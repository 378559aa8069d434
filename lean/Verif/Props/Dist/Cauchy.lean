import Verif.Lemmas.Dist.Cauchy

/-! Properties of `cauchy`. -/

namespace Mpsci.cauchy

open Classical Num Spec common Filter Topology Set

variable {loc s : ℝ}

/-- C01 -/
theorem complementary (hs : 0 < s) :
    Complementary (cdf · (fin loc) (fin s)) (sf · (fin loc) (fin s)) :=
  complementary_of (cdf_eval hs) (sf_eval hs)

/-- C02 -/
theorem isCdf (hs : 0 < s) : IsCdf (cdf · (fin loc) (fin s)) := (isDist hs).isCdf (cdf_eval hs)

/-- C03 -/
theorem isDensity (hs : 0 < s) :
    IsDensity ∅ univ (pdf · (fin loc) (fin s)) (cdf · (fin loc) (fin s)) :=
  (isDist hs).isDensity (fun x _ => pdf_eval hs x) (cdf_eval hs) (by simp)

/-- C04 -/
theorem isLogOf (hs : 0 < s) :
    IsLogOf ∅ (pdf · (fin loc) (fin s)) (logpdf · (fin loc) (fin s)) :=
  isLogOf_pos (fun _ _ => div_pos (f_pos _) hs) (fun x _ => pdf_eval hs x)
    (fun x _ => logpdf_eval hs x)

/-- C05 -/
theorem inverts_cdf (hs : 0 < s) :
    Inverts univ (cdf · (fin loc) (fin s)) (invcdf · (fin loc) (fin s)) :=
  inverts_affine hs (fun x _ => cdf_eval hs x) (fun _ => invcdf_eval hs) (fun _ => F_Q)
    (fun _ _ => Q_F)

/-- C05 -/
theorem inverts_sf (hs : 0 < s) :
    Inverts univ (sf · (fin loc) (fin s)) (invsf · (fin loc) (fin s)) :=
  inverts_affine_compl hs (fun x _ => sf_eval hs x) (fun _ => invsf_eval hs) (fun _ => F_Q)
    (fun _ _ => Q_F)

/-- C06 -/
theorem rejects_p : RejectsBadP (invcdf · (fin loc) (fin s)) ∧
    RejectsBadP (invsf · (fin loc) (fin s)) := by
  by_cases hs : 0 < s
  · constructor <;> intro p hp <;>
      simp [invcdf, invsf, validateP_bad hp, validateLocScale_ok _ hs]
  · constructor <;> intro p hp <;> simp [invcdf, invsf, validateP_bad hp, validateLocScale_bad _ (not_lt.1 hs)]

/-- C07 -/
theorem validates (x : ℝ) :
    ValidatesExactly (0 < s) (cdf (fin x) (fin loc) (fin s)) ∧
    ValidatesExactly (0 < s) (sf (fin x) (fin loc) (fin s)) ∧
    ValidatesExactly (0 < s) (pdf (fin x) (fin loc) (fin s)) ∧
    ValidatesExactly (0 < s) (logpdf (fin x) (fin loc) (fin s)) := by
  refine ⟨⟨fun h => ⟨_, cdf_eval h x⟩, fun h => ?_⟩, ⟨fun h => ⟨_, sf_eval h x⟩, fun h => ?_⟩,
    ⟨fun h => ⟨_, pdf_eval h x⟩, fun h => ?_⟩, ⟨fun h => ⟨_, logpdf_eval h x⟩, fun h => ?_⟩⟩ <;>
  simp [cdf, sf, pdf, logpdf, validateLocScale_bad _ (not_lt.1 h)]

/-- C08 -/
theorem locScale : LocScaleInvariant @cdf ∧ LocScaleInvariant @sf ∧ LocScaleDensity @pdf :=
  ⟨locScale_of_std fun x _ _ hs => cdf_eval hs x,
   locScale_of_std (G := fun z => 1 - F z) fun x _ _ hs => sf_eval hs x,
   locScaleDensity_of_std fun x _ _ hs => pdf_eval hs x⟩

/-- C09 -/
theorem isMode (hs : 0 < s) : IsMode ∅ (pdf · (fin loc) (fin s)) (mode (fin loc) (fin s)) := by
  refine isMode_of (m := loc) (by simp [mode, validateLocScale_ok _ hs])
    (fun x _ => pdf_eval hs x) (by simp) fun y _ => ?_
  rw [sub_self, zero_div]
  gcongr
  exact f_le _

/-- C41 fails for cauchy: at `p = 0` both quantile functions divide by zero, instead of returning
`-inf` and `+inf`. -/
theorem endPoints_fail (hs : 0 < s) :
    invcdf 0 (fin loc) (fin s) = .error .zeroDivision ∧
    invsf 0 (fin loc) (fin s) = .error .zeroDivision := by
  constructor <;> simp [invcdf, invsf, validateP_ok, validateLocScale_ok _ hs, mp.cot]

/-- C48 -/
theorem atInfinities (hs : 0 < s) :
    AtInfinities (cdf · (fin loc) (fin s)) (sf · (fin loc) (fin s)) := by
  simp [AtInfinities, cdf, sf, validateLocScale_ok _ hs, pinf_div_pos hs, ninf_div_pos hs,
    fin_div _ Real.pi_ne_zero, Real.pi_ne_zero]

theorem support_eq (hs : 0 < s) : support (fin loc) (fin s) = .ok (ninf, pinf) := by
  simp [support, validateLocScale_ok _ hs]

/-- Non-vacuity: `loc = 2`, `scale = 3` is admissible; `cdf(2) = 1/2`. -/
example : (0:ℝ) < 3 ∧ cdf (fin 2) (fin 2) (fin 3) = .ok (fin (1 / 2)) := by
  refine ⟨by norm_num, ?_⟩
  rw [cdf_eval (by norm_num)]; simp [F]

end Mpsci.cauchy
