import Verif.Lemmas.Fit.Logistic

/-! Estimators of the logistic distribution. -/

namespace Mpsci.logistic

open Classical Num common Spec

variable {xs : List ℝ} {loc s : ℝ} {findroot2 : (Num → Num → M (Num × Num)) → Num × Num → M (Num × Num)}

/-- C30 -/
theorem nll_spec (hs : 0 < s) : NllIsNegSum Set.univ (logpdf · (fin loc) (fin s)) (nll · (fin loc) (fin s)) := by
  refine nll_of (l := fun x => -(Real.log s + phi ((x - loc) / s)))
    (fun x _ => by rw [logpdf_eval hs, log_f hs]) fun xs _ => ?_
  rw [nll_eval hs]
  congr 2
  have := List.sum_map_mul_left xs (fun x => Real.log s + phi ((x - loc) / s)) (-1)
  simp only [neg_one_mul] at this
  rw [this, neg_neg]

/-- C30: a scale that is not positive is rejected. -/
theorem nll_rejects (hs : s ≤ 0) (xs : List Num) : nll xs (fin loc) (fin s) = .error .valueError := by
  simp only [nll, validateLocScale_bad _ hs]; rfl

theorem stationary (hs : 0 < s) (h1 : (xs.map fun x => Real.tanh ((x - loc) / s / 2)).sum = 0)
    (h2 : -(xs.length:ℝ) + (xs.map fun x => x * Real.tanh ((x - loc) / s / 2)).sum / s = 0) :
    IsMle (fun θ : ℝ × ℝ => 0 < θ.2) (fun θ => nll (xs.map fin) (fin θ.1) (fin θ.2)) (loc, s) := by
  refine isMle_of hs (fun θ hθ => nll_eval hθ xs) fun θ hθ =>
    locScale_stationary (φ' := fun z => Real.tanh (z / 2)) phi_tangent hs ?_ (Or.inl h1) hθ
  have e : ∀ x : ℝ, Real.tanh ((x - loc) / s / 2) * ((x - loc) / s) =
      -loc / s * Real.tanh ((x - loc) / s / 2) + 1 / s * (x * Real.tanh ((x - loc) / s / 2)) := fun x => by ring
  rw [List.map_congr_left fun x _ => e x, List.sum_map_add, List.sum_map_mul_left, List.sum_map_mul_left, h1]
  have := hs.ne'
  field_simp at h2 ⊢
  linarith

/-- C31: if the root finder returns finite values for the location and the scale, and the scale is not 0, the estimates
maximise the likelihood over all locations and all positive scales (a negative root is turned into a positive one).
Missing: that the multidimensional Newton method finds a root. -/
theorem mle_isMle_partial (hf : SoundFinder2 findroot2) (hs : s ≠ 0)
    (h : mle findroot2 (xs.map fin) = .ok (fin loc, fin s)) :
    IsMle (fun θ : ℝ × ℝ => 0 < θ.2) (fun θ => nll (xs.map fin) (fin θ.1) (fin θ.2)) (loc, s) := by
  unfold mle at h
  rcases h0 : mom (xs.map fin) with _ | start
  · rw [h0] at h; exact absurd h (by simp [bind, Except.bind])
  rw [h0, ok_bind] at h
  rcases hr : findroot2 (fun loc scale => do return (← mleLocEq loc scale (xs.map fin), ← mleScaleEq loc scale (xs.map fin))) start with _ | r
  · rw [hr] at h; exact absurd h (by simp [bind, Except.bind])
  rw [hr, ok_bind] at h
  obtain ⟨l, t⟩ := r
  simp only [pure_eq_ok] at h
  obtain ⟨rfl, h1⟩ := Prod.mk.inj (Except.ok.inj h)
  obtain ⟨t', rfl⟩ : ∃ t' : ℝ, t = fin t' := by
    cases t with
    | fin t' => exact ⟨t', rfl⟩
    | _ => exact absurd h1 (by simp [Num.abs])
  rw [abs_fin] at h1
  have h1 : |t'| = s := fin.inj h1
  have ht : t' ≠ 0 := by rintro rfl; simp at h1; exact hs h1.symm
  have h2 := hf _ _ _ hr
  simp only [locEq_eval ht, scaleEq_eval ht, ok_bind, pure_eq_ok, zero_def] at h2
  obtain ⟨e1, e2⟩ := Prod.mk.inj (Except.ok.inj h2)
  have e1 := fin.inj e1
  have e2 := fin.inj e2
  subst h1
  have hs' : 0 < |t'| := abs_pos.2 ht
  rcases lt_or_gt_of_ne ht with hneg | hpos
  · have hab : |t'| = -t' := abs_of_neg hneg
    have q : ∀ x : ℝ, Real.tanh ((x - loc) / |t'| / 2) = -1 * Real.tanh ((x - loc) / t' / 2) := fun x => by
      rw [hab, div_neg, neg_div, Real.tanh_neg]; ring
    refine stationary hs' ?_ ?_
    · simp only [q]; rw [List.sum_map_mul_left, e1]; simp
    · simp only [q]
      rw [List.map_congr_left (g := fun x => -1 * (x * Real.tanh ((x - loc) / t' / 2))) fun x _ => by ring,
        List.sum_map_mul_left, hab, ← e2]
      field_simp
  · have hab : |t'| = t' := abs_of_pos hpos
    rw [hab]
    exact stationary hpos e1 e2

/-- C32: unless all data are equal, `mom` returns admissible parameters, whose mean and variance are the sample mean and
variance. -/
theorem mom_matches (hv : ¬ ∃ c, ∀ x ∈ xs, x = c) : ∃ m s : ℝ, mom (xs.map fin) = .ok (fin m, fin s) ∧ 0 < s ∧
    MatchesMoments xs (mean (fin m) (fin s)) (var (fin m) (fin s)) := by
  have hn : xs ≠ [] := by rintro rfl; exact hv ⟨0, by simp⟩
  have h0 : 0 < sampleVar xs := (sampleVar_nonneg xs).lt_of_ne' (mt (sampleVar_eq_zero hn).1 hv)
  have h1 : 0 < 3 * sampleVar xs := by positivity
  have hs : 0 < Real.sqrt (3 * sampleVar xs) / Real.pi := div_pos (Real.sqrt_pos.2 h1) Real.pi_pos
  refine ⟨sampleMean xs, _, ?_, hs, ?_, ?_⟩
  · simp only [mom, mean_fin hn, mean_sq_fin hn, ok_bind, mp.ipow_fin, fin_sub, ofNat_def, fin_mul,
      sampleVar_eq hn, mp.sqrt_nonneg h1.le, mp.pi_def, fin_div _ Real.pi_ne_zero, pure_eq_ok]
  · simp only [mean, validateLocScale_ok _ hs, ok_bind, pure_eq_ok]
  · simp only [var, validateLocScale_ok _ hs, ok_bind, mp.ipow_fin, mp.pi_def, fin_mul, ofNat_def,
      fin_div _ (show (3:ℝ) ≠ 0 by norm_num)]
    congr 2
    rw [div_pow, Real.sq_sqrt h1.le]
    have := Real.pi_ne_zero
    field_simp

/-- Non-vacuity: for the symmetric data -1, 1 there is a solution of the likelihood equations with `loc = 0`
(`1 / (2 s)` solves `u tanh u = 1 / 2`), so a sound root finder may return it; `mom` needs data that are not all equal. -/
example : (∃ f, SoundFinder2 f) ∧ (¬ ∃ c : ℝ, ∀ x ∈ [(-1:ℝ), 1], x = c) ∧
    ∃ s : ℝ, 0 < s ∧ ([-1, 1].map fun x => Real.tanh ((x - 0) / s / 2)).sum = 0 ∧
      -(([-1, 1] : List ℝ).length : ℝ) + ([-1, 1].map fun x => x * Real.tanh ((x - 0) / s / 2)).sum / s = 0 := by
  refine ⟨exists_soundFinder2.imp fun _ h => h.1, ?_, ?_⟩
  · rintro ⟨c, h⟩
    have h1 := h (-1) (by simp)
    have h2 := h 1 (by simp)
    linarith
  · have hc : Continuous fun u : ℝ => u * Real.tanh u := by
      have : Continuous Real.tanh := by
        have e : Real.tanh = fun x => Real.sinh x / Real.cosh x := funext Real.tanh_eq_sinh_div_cosh
        rw [e]; exact Real.continuous_sinh.div Real.continuous_cosh fun x => (Real.cosh_pos x).ne'
      exact continuous_id.mul this
    have h2 : (1 / 2 : ℝ) ≤ 2 * Real.tanh 2 := by
      have hcs := Real.cosh_pos (2:ℝ)
      rw [Real.tanh_eq_sinh_div_cosh, ← mul_div_assoc, le_div_iff₀ hcs, Real.sinh_eq, Real.cosh_eq]
      have e1 := Real.add_one_le_exp (2:ℝ)
      have e2 : Real.exp (-2:ℝ) ≤ 1 := Real.exp_le_one_iff.2 (by norm_num)
      linarith
    obtain ⟨u, hu, hu'⟩ := intermediate_value_Icc (show (0:ℝ) ≤ 2 by norm_num) hc.continuousOn
      (show (1 / 2 : ℝ) ∈ Set.Icc ((fun u => u * Real.tanh u) 0) ((fun u => u * Real.tanh u) 2) from ⟨by simp, h2⟩)
    have hu0 : 0 < u := hu.1.lt_of_ne' (by rintro rfl; simp at hu')
    have e : 1 / (1 / (2 * u)) / 2 = u := by field_simp
    refine ⟨1 / (2 * u), by positivity, ?_, ?_⟩
    · simp [neg_div, Real.tanh_neg]
    · simp only [List.map_cons, List.map_nil, List.sum_cons, List.sum_nil, sub_zero, add_zero, neg_div, Real.tanh_neg, e]
      simp only at hu'
      simp
      field_simp
      linarith

end Mpsci.logistic
