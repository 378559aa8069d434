import Verif.Lemmas.Dist.Laplace

/-! Properties of `laplace`. -/

namespace Mpsci.laplace

open Classical Num Spec common Filter Topology Set

variable {loc s : ℝ}

/-- C01 -/
theorem complementary (hs : 0 < s) :
    Complementary (cdf · (fin loc) (fin s)) (sf · (fin loc) (fin s)) :=
  complementary_of (cdf_eval hs) (sf_eval hs)

/-- C02 -/
theorem isCdf (hs : 0 < s) : IsCdf (cdf · (fin loc) (fin s)) := (isDist hs).isCdf (cdf_eval hs)

/-- C03 -/
theorem isDensity (hs : 0 < s) :
    IsDensity ∅ univ (pdf · (fin loc) (fin s)) (cdf · (fin loc) (fin s)) :=
  (isDist hs).isDensity (fun x _ => pdf_eval hs x) (cdf_eval hs) (by simp)

/-- C04 -/
theorem isLogOf (hs : 0 < s) :
    IsLogOf ∅ (pdf · (fin loc) (fin s)) (logpdf · (fin loc) (fin s)) :=
  isLogOf_pos (fun _ _ => div_pos (f_pos _) hs) (fun x _ => pdf_eval hs x)
    (fun x _ => logpdf_eval hs x)

/-- C05 -/
theorem inverts_cdf (hs : 0 < s) :
    Inverts univ (cdf · (fin loc) (fin s)) (invcdf · (fin loc) (fin s)) :=
  inverts_affine hs (fun x _ => cdf_eval hs x) (fun _ => invcdf_eval hs) (fun _ => F_Q)
    (fun _ _ => Q_F)

/-- C05 -/
theorem inverts_sf (hs : 0 < s) :
    Inverts univ (sf · (fin loc) (fin s)) (invsf · (fin loc) (fin s)) :=
  inverts_affine_compl hs (fun x _ => sf_eval hs x) (fun _ => invsf_eval hs) (fun _ => F_Q)
    (fun _ _ => Q_F)

/-- C06 fails for laplace: `p` is not validated.  `invcdf(-1)` and `invsf(2)` leave the real line
instead of raising ValueError. -/
theorem accepts_bad_p (hs : 0 < s) :
    ¬ RejectsBadP (invcdf · (fin loc) (fin s)) ∧ ¬ RejectsBadP (invsf · (fin loc) (fin s)) := by
  constructor
  · intro h
    have := h (-1) (by norm_num)
    have e : mp.log (fin (-2)) = .error .complexResult := mp.log_neg (by norm_num)
    have l : (-1:ℝ) ≤ 2⁻¹ := by norm_num
    simp [invcdf, validateLocScale_ok _ hs, e, l] at this
  · intro h
    have := h 2 (by norm_num)
    have e : mp.log (fin (2 - 2 * 2)) = .error .complexResult := mp.log_neg (by norm_num)
    have l : (2:ℝ)⁻¹ ≤ 2 := by norm_num
    simp [invsf, validateLocScale_ok _ hs, e, l] at this

/-- C07 -/
theorem validates (x : ℝ) :
    ValidatesExactly (0 < s) (cdf (fin x) (fin loc) (fin s)) ∧
    ValidatesExactly (0 < s) (sf (fin x) (fin loc) (fin s)) ∧
    ValidatesExactly (0 < s) (pdf (fin x) (fin loc) (fin s)) ∧
    ValidatesExactly (0 < s) (logpdf (fin x) (fin loc) (fin s)) := by
  refine ⟨⟨fun h => ⟨_, cdf_eval h x⟩, fun h => ?_⟩, ⟨fun h => ⟨_, sf_eval h x⟩, fun h => ?_⟩,
    ⟨fun h => ⟨_, pdf_eval h x⟩, fun h => ?_⟩, ⟨fun h => ⟨_, logpdf_eval h x⟩, fun h => ?_⟩⟩ <;>
  simp [cdf, sf, pdf, logpdf, validateLocScale_bad _ (not_lt.1 h)]

/-- C08 -/
theorem locScale : LocScaleInvariant @cdf ∧ LocScaleInvariant @sf ∧ LocScaleDensity @pdf :=
  ⟨locScale_of_std fun x _ _ hs => cdf_eval hs x,
   locScale_of_std (G := fun z => 1 - F z) fun x _ _ hs => sf_eval hs x,
   locScaleDensity_of_std fun x _ _ hs => pdf_eval hs x⟩

/-- C09 -/
theorem isMode (hs : 0 < s) : IsMode ∅ (pdf · (fin loc) (fin s)) (mode (fin loc) (fin s)) := by
  refine isMode_of (m := loc) (by simp [mode, validateLocScale_ok _ hs])
    (fun x _ => pdf_eval hs x) (by simp) fun y _ => ?_
  rw [sub_self, zero_div]
  gcongr
  exact f_le _

/-- C41 -/
theorem endPoints (hs : 0 < s) :
    EndPoints (invcdf · (fin loc) (fin s)) ninf pinf ∧
    EndPoints (invsf · (fin loc) (fin s)) pinf ninf := by
  have l1 : ¬ ((1:ℝ) ≤ 2⁻¹) := by norm_num
  have l2 : (2:ℝ)⁻¹ ≤ 1 := by norm_num
  have h1 : fin loc - pinf = ninf := rfl
  have h2 : fin loc - ninf = pinf := rfl
  refine ⟨⟨?_, ?_⟩, ⟨?_, ?_⟩⟩ <;>
  simp [invcdf, invsf, validateLocScale_ok _ hs, scaleInf_pos hs, l1, l2, h1, h2]

/-- C48 -/
theorem atInfinities (hs : 0 < s) :
    AtInfinities (cdf · (fin loc) (fin s)) (sf · (fin loc) (fin s)) := by
  have h2 : (0:ℝ) < 2 := by norm_num
  refine ⟨?_, ?_, ?_, ?_⟩ <;>
  simp [cdf, sf, validateLocScale_ok _ hs, pinf_div_pos hs, ninf_div_pos hs,
    pinf_div_pos h2, ninf_div_pos h2] <;> norm_num

theorem support_eq (hs : 0 < s) : support (fin loc) (fin s) = .ok (ninf, pinf) := by
  simp [support, validateLocScale_ok _ hs]

/-- C40: for `x1 ≤ x2`, `interval_prob` is `cdf(x2) - cdf(x1)`. -/
theorem intervalProb_eq (hs : 0 < s) {x1 x2 : ℝ} (h : x1 ≤ x2) :
    ∃ c1 c2 : ℝ, cdf (fin x1) (fin loc) (fin s) = .ok (fin c1) ∧
      cdf (fin x2) (fin loc) (fin s) = .ok (fin c2) ∧
      intervalProb (fin x1) (fin x2) (fin loc) (fin s) = .ok (fin (c2 - c1)) := by
  refine ⟨_, _, cdf_eval hs x1, cdf_eval hs x2, ?_⟩
  rcases eq_or_lt_of_le h with h' | h'
  · subst h'
    simp [intervalProb, validateLocScale_ok _ hs]
  · set z1 := (x1 - loc) / s with hz1
    set z2 := (x2 - loc) / s with hz2
    have hz : z1 < z2 := by rw [hz1, hz2]; gcongr
    have e1 : Real.exp z2 * Real.exp (-(z2 - z1)) = Real.exp z1 := by
      rw [← Real.exp_add]; ring_nf
    have e2 : Real.exp (-z1) * Real.exp (-(z2 - z1)) = Real.exp (-z2) := by
      rw [← Real.exp_add]; ring_nf
    simp only [intervalProb, validateLocScale_ok _ hs, ok_bind, gt_iff, fin_lt, if_neg h'.not_gt,
      fin_eq, if_neg h'.ne, fin_sub, fin_div _ hs.ne', ← hz1, ← hz2, zero_def, fin_le, ge_iff,
      neg_fin, mp.exp_fin, mp.expm1_fin, fin_mul, fin_add, ofNat_def,
      fin_div _ (two_ne_zero (α := ℝ))]
    by_cases a : z2 ≤ 0
    · have b : z1 ≤ 0 := by linarith
      rw [if_pos a, F, F, if_pos a, if_pos b]
      congr 2
      linear_combination (-1/2) * e1
    · by_cases b : 0 ≤ z1
      · rw [if_neg a, if_pos b]
        rcases eq_or_lt_of_le b with b' | b'
        · rw [F, F, if_neg a, if_pos b'.symm.le]
          rw [← b'] at e2 ⊢
          simp at e2 ⊢
          ring
        · rw [F, F, if_neg a, if_neg (not_le.2 b')]
          congr 2
          linear_combination (-1/2) * e2
      · rw [if_neg a, if_neg b, F, F, if_neg a, if_pos (le_of_lt (not_le.1 b))]
        congr 2
        ring

/-- C40: `x1 > x2` is rejected. -/
theorem intervalProb_order (hs : 0 < s) {x1 x2 : ℝ} (h : x2 < x1) :
    intervalProb (fin x1) (fin x2) (fin loc) (fin s) = .error .valueError := by
  simp [intervalProb, validateLocScale_ok _ hs, h]

/-- Non-vacuity: `loc = 2`, `scale = 3` is admissible; `cdf(2) = 1/2`. -/
example : (0:ℝ) < 3 ∧ cdf (fin 2) (fin 2) (fin 3) = .ok (fin (1 / 2)) := by
  refine ⟨by norm_num, ?_⟩
  rw [cdf_eval (by norm_num)]; simp [F]

end Mpsci.laplace
