import Verif.Lemmas.Fit.Median
import Verif.Lemmas.Dist.Laplace
import Verif.Lemmas.Dist.Uniform

/-! Estimators of the Laplace and the uniform distribution. -/

namespace Mpsci.laplace

open Classical Num common Spec

variable {xs : List ℝ} {loc s : ℝ}

theorem log_f (hs : 0 < s) (x : ℝ) : Real.log (f ((x - loc) / s) / s) = -(Real.log (2 * s) + 1 / s * |x - loc|) := by
  rw [f, div_div, Real.log_div (Real.exp_pos _).ne' (by positivity), Real.log_exp, abs_div, abs_of_pos hs]; ring

theorem lik_eval (hs : 0 < s) (xs : List ℝ) : negLogLik (logpdf · (fin loc) (fin s)) (xs.map fin) =
    .ok (fin (xs.length * Real.log (2 * s) + 1 / s * (xs.map fun x => |x - loc|).sum)) := by
  rw [negLogLik_eval fun x _ => logpdf_eval hs x, ← sum_map_affine, List.map_congr_left fun x _ => log_f hs x]
  congr 2
  have := List.sum_map_mul_left xs (fun x => Real.log (2 * s) + 1 / s * |x - loc|) (-1)
  simp only [neg_one_mul] at this
  rw [this, neg_neg]

theorem absDev_pos (h : ∃ x ∈ xs, x ≠ loc) : 0 < sampleMean (xs.map fun x => |x - loc|) := by
  obtain ⟨x, hx, hne⟩ := h
  exact sampleMean_pos (fun _ _ => abs_nonneg _) ⟨x, hx, abs_pos.2 (sub_ne_zero.2 hne)⟩

theorem scale_min (hn : xs ≠ []) (h : 0 < sampleMean (xs.map fun x => |x - loc|)) (hs : 0 < s) {loc' : ℝ}
    (hl : (xs.map fun x => |x - loc|).sum ≤ (xs.map fun x => |x - loc'|).sum) :
    xs.length * Real.log (2 * sampleMean (xs.map fun x => |x - loc|)) +
      1 / sampleMean (xs.map fun x => |x - loc|) * (xs.map fun x => |x - loc|).sum ≤
    xs.length * Real.log (2 * s) + 1 / s * (xs.map fun x => |x - loc'|).sum := by
  have h1 : 1 / s * (xs.map fun x => |x - loc|).sum ≤ 1 / s * (xs.map fun x => |x - loc'|).sum :=
    mul_le_mul_of_nonneg_left hl (by positivity)
  refine le_trans ?_ (add_le_add_right h1 _)
  rw [sum_eq_mean hn (fun x => |x - loc|)]
  have h2 := log_add_div_min h hs
  set A := sampleMean (xs.map fun x => |x - loc|)
  rw [Real.log_mul (by norm_num) h.ne', Real.log_mul (by norm_num) hs.ne']
  have hl := length_pos hn
  have e1 : 1 / A * (xs.length * A) = xs.length * 1 := by field_simp
  have e2 : 1 / s * (xs.length * A) = xs.length * (A / s) := by ring
  rw [e1, e2]
  nlinarith

theorem mean_abs_eval (hn : xs ≠ []) : stats.mean ((xs.map fin).map fun t => Num.abs (t - fin loc)) =
    .ok (fin (sampleMean (xs.map fun x => |x - loc|))) := by
  rw [List.map_map]
  exact mean_map hn fun x => |x - loc|

/-- C31: with nothing fixed, unless all data are equal, the estimates maximise the likelihood over all locations and
all positive scales. -/
theorem mle_isMle (hv : ¬ ∃ c, ∀ x ∈ xs, x = c) : ∃ m s : ℝ, mle (xs.map fin) none none = .ok (fin m, fin s) ∧
    IsMle (fun θ : ℝ × ℝ => 0 < θ.2) (fun θ => negLogLik (logpdf · (fin θ.1) (fin θ.2)) (xs.map fin)) (m, s) := by
  have hn : xs ≠ [] := by rintro rfl; exact hv ⟨0, by simp⟩
  obtain ⟨m, h1, h2, h3⟩ := mleLoc_eval hn
  have hp : 0 < sampleMean (xs.map fun x => |x - m|) := absDev_pos (by
    by_contra h; push Not at h; exact hv ⟨m, h⟩)
  refine ⟨m, sampleMean (xs.map fun x => |x - m|), by simp only [mle, h1, ok_bind, mean_abs_eval hn, pure_eq_ok], isMle_of hp (fun θ hθ => lik_eval hθ xs)
    fun θ hθ => scale_min hn hp hθ (abs_dev_min h2 h3 _)⟩

/-- C31: with the location fixed (and some value different from it), the scale maximises the likelihood. -/
theorem mle_fixedLoc (h : ∃ x ∈ xs, x ≠ loc) : ∃ s : ℝ, mle (xs.map fin) (some (fin loc)) none = .ok (fin loc, fin s) ∧
    IsMle (fun t : ℝ => 0 < t) (fun t => negLogLik (logpdf · (fin loc) (fin t)) (xs.map fin)) s := by
  have hn : xs ≠ [] := by obtain ⟨x, hx, -⟩ := h; exact List.ne_nil_of_mem hx
  have hp := absDev_pos h
  refine ⟨_, by simp only [mle, pure_eq_ok, ok_bind, mean_abs_eval hn], isMle_of hp (fun t ht => lik_eval ht xs)
    fun t ht => scale_min hn hp ht le_rfl⟩

/-- C31: with the scale fixed, the location maximises the likelihood. -/
theorem mle_fixedScale (hn : xs ≠ []) (hs : 0 < s) : ∃ m : ℝ, mle (xs.map fin) none (some (fin s)) = .ok (fin m, fin s) ∧
    IsMle (fun _ : ℝ => True) (fun m => negLogLik (logpdf · (fin m) (fin s)) (xs.map fin)) m := by
  obtain ⟨m, h1, h2, h3⟩ := mleLoc_eval hn
  refine ⟨m, by simp [mle, h1, hs.not_ge], isMle_of trivial (fun m _ => lik_eval hs xs) fun m' _ => ?_⟩
  have := abs_dev_min h2 h3 m'
  have h4 : 0 ≤ 1 / s := by positivity
  have := mul_le_mul_of_nonneg_left this h4
  simpa using this

/-- C31: fixed parameters are returned unchanged; a fixed scale that is not positive is rejected, whatever the location. -/
theorem mle_fixed_or_rejected (xs : List ℝ) (s : ℝ) :
    (0 < s → mle (xs.map fin) (some (fin loc)) (some (fin s)) = .ok (fin loc, fin s)) ∧
    (s ≤ 0 → mle (xs.map fin) (some (fin loc)) (some (fin s)) = .error .valueError ∧
      (xs ≠ [] → mle (xs.map fin) none (some (fin s)) = .error .valueError)) := by
  refine ⟨fun h => by simp [mle, h.not_ge], fun h => ⟨by simp [mle, h], fun hn => ?_⟩⟩
  obtain ⟨m, h1, -, -⟩ := mleLoc_eval hn
  simp only [mle, h1, ok_bind, zero_def, fin_le, if_pos h]; rfl

/-- C31: without data the estimators raise. -/
theorem mle_empty : mle [] none none = .error .indexError ∧ mle [] (some (fin loc)) none = .error .zeroDivision := by
  constructor
  · simp [mle, mleLoc, py.sorted, py.item]
  · simp [mle]

/-- C32: unless all data are equal, `mom` returns admissible parameters, whose mean and variance are the sample mean and
variance. -/
theorem mom_matches (hv : ¬ ∃ c, ∀ x ∈ xs, x = c) : ∃ m s : ℝ, mom (xs.map fin) = .ok (fin m, fin s) ∧ 0 < s ∧
    MatchesMoments xs (mean (fin m) (fin s)) (var (fin m) (fin s)) := by
  have hn : xs ≠ [] := by rintro rfl; exact hv ⟨0, by simp⟩
  have h0 : 0 < sampleVar xs := (sampleVar_nonneg xs).lt_of_ne' (mt (sampleVar_eq_zero hn).1 hv)
  have h1 : 0 < sampleVar xs / 2 := by positivity
  have hs := Real.sqrt_pos.2 h1
  refine ⟨sampleMean xs, Real.sqrt (sampleVar xs / 2), ?_, hs, ?_, ?_⟩
  · simp only [mom, mean_fin hn, mean_sq_fin hn, ok_bind, mp.ipow_fin, fin_sub, ofNat_def, fin_div _ (two_ne_zero (α := ℝ)),
      sampleVar_eq hn, mp.sqrt_nonneg h1.le, pure_eq_ok]
  · simp only [mean, validateLocScale_ok _ hs, ok_bind, pure_eq_ok]
  · simp only [var, validateLocScale_ok _ hs, ok_bind, mp.ipow_fin, Real.sq_sqrt h1.le, ofNat_def, fin_mul, pure_eq_ok]
    congr 2; ring

/-- Non-vacuity: the data 1, 3, 8 are not all equal; the estimated location is 3. -/
example : (¬ ∃ c : ℝ, ∀ x ∈ [(1:ℝ), 3, 8], x = c) ∧ ∃ x ∈ [(1:ℝ), 3, 8], x ≠ 3 := by
  refine ⟨?_, 1, by simp, by norm_num⟩
  rintro ⟨c, h⟩
  have h1 := h 1 (by simp)
  have h2 := h 3 (by simp)
  linarith

end Mpsci.laplace

namespace Mpsci.uniform

open Classical Num common Spec

variable {xs : List ℝ}

/-- C31: unless all data are equal, the smallest and the largest value maximise the likelihood over all intervals
`a < b`; for an interval that does not contain the data, minus the log-likelihood is `+inf`. -/
theorem mle_isMle (hv : ¬ ∃ c, ∀ x ∈ xs, x = c) : ∃ a b : ℝ, mle (xs.map fin) = .ok (fin a, fin b) ∧
    IsMle (fun θ : ℝ × ℝ => θ.1 < θ.2) (fun θ => negLogLik (logpdf · (fin θ.1) (fin θ.2)) (xs.map fin)) (a, b) := by
  have hn : xs ≠ [] := by rintro rfl; exact hv ⟨0, by simp⟩
  obtain ⟨a, ha, ha', ea⟩ := py.min_fin hn
  obtain ⟨b, hb, hb', eb⟩ := py.max_fin hn
  have hab : a < b := by
    by_contra h
    exact hv ⟨a, fun x hx => le_antisymm ((hb' x hx).trans (not_lt.1 h)) (ha' x hx)⟩
  have hin : ∀ {c d : ℝ}, c < d → (∀ x ∈ xs, x ∈ Set.Icc c d) →
      negLogLik (logpdf · (fin c) (fin d)) (xs.map fin) = .ok (fin (xs.length * Real.log (d - c))) := fun {c d} h hx => by
    rw [negLogLik_eval (l := fun _ => -Real.log (d - c)) fun x hm => ?_]
    · simp
    · rw [logpdf_in h (hx x hm)]
      have : ¬ (x < c ∨ d < x) := by have := hx x hm; push Not; exact this
      rw [f, if_neg this, one_div, Real.log_inv]
  have hout : ∀ {c d : ℝ}, c < d → (∃ x ∈ xs, x ∉ Set.Icc c d) →
      negLogLik (logpdf · (fin c) (fin d)) (xs.map fin) = .ok pinf := fun {c d} h hx => by
    have h1 : ∀ l : List ℝ, ∃ r : List Num, (l.map fin).mapM (logpdf · (fin c) (fin d)) = .ok r ∧
        (((∀ x ∈ l, x ∈ Set.Icc c d) ∧ ∃ t : ℝ, mp.fsum r = fin t) ∨ ((∃ x ∈ l, x ∉ Set.Icc c d) ∧ mp.fsum r = ninf)) := by
      intro l
      induction l with
      | nil => exact ⟨[], by simp, Or.inl ⟨by simp, 0, by simp [mp.fsum]⟩⟩
      | cons y l ih =>
        obtain ⟨r, e, hr⟩ := ih
        by_cases hy : y ∈ Set.Icc c d
        · refine ⟨fin (Real.log (f c d y)) :: r, by simp [List.mapM_cons, logpdf_in h hy, e], ?_⟩
          rcases hr with ⟨h2, t, h3⟩ | ⟨⟨x, h2, h2'⟩, h3⟩
          · refine Or.inl ⟨?_, Real.log (f c d y) + t, ?_⟩
            · intro x hx
              rcases List.mem_cons.1 hx with rfl | hx
              · exact hy
              · exact h2 x hx
            · change fin _ + mp.fsum r = _; rw [h3]; simp
          · refine Or.inr ⟨⟨x, List.mem_cons_of_mem _ h2, h2'⟩, ?_⟩
            change fin _ + mp.fsum r = _; rw [h3]; rfl
        · refine ⟨ninf :: r, by simp [List.mapM_cons, logpdf_out h hy, e], Or.inr ⟨⟨y, by simp, hy⟩, ?_⟩⟩
          change ninf + mp.fsum r = _
          rcases hr with ⟨_, t, h3⟩ | ⟨_, h3⟩ <;> rw [h3] <;> rfl
    obtain ⟨r, e, h2⟩ := h1 xs
    rcases h2 with ⟨h2, -⟩ | ⟨-, h3⟩
    · obtain ⟨x, hx, hx'⟩ := hx
      exact absurd (h2 x hx) hx'
    · simp only [negLogLik, e, ok_bind, h3]; rfl
  refine ⟨a, b, by simp only [mle, ea, eb, ok_bind, pure_eq_ok], hab, _, hin hab fun x hx => ⟨ha' x hx, hb' x hx⟩, ?_⟩
  rintro ⟨c, d⟩ hcd
  by_cases hx : ∀ x ∈ xs, x ∈ Set.Icc c d
  · refine ⟨_, hin hcd hx, (fin_le _ _).2 (mul_le_mul_of_nonneg_left (Real.log_le_log (by linarith) ?_) (by positivity))⟩
    have h1 := (hx a ha).1
    have h2 := (hx b hb).2
    simp only at h1 h2 ⊢
    linarith
  · push Not at hx
    exact ⟨_, hout hcd hx, trivial⟩

/-- C31: if all data are equal the interval is a point, which is not admissible: `logpdf` raises there; without data
`mle` raises. -/
theorem mle_constant {c : ℝ} (hn : xs ≠ []) (hc : ∀ x ∈ xs, x = c) : mle (xs.map fin) = .ok (fin c, fin c) ∧
    logpdf (fin c) (fin c) (fin c) = .error .valueError ∧ mle [] = .error .valueError := by
  obtain ⟨a, ha, -, ea⟩ := py.min_fin hn
  obtain ⟨b, hb, -, eb⟩ := py.max_fin hn
  refine ⟨by simp only [mle, ea, eb, ok_bind, pure_eq_ok, hc a ha, hc b hb], ?_, ?_⟩
  · simp [logpdf, validate]
  · simp [mle, py.min]

/-- C32: unless all data are equal, `mom` returns admissible parameters, whose mean and variance are the sample mean and
variance. -/
theorem mom_matches (hv : ¬ ∃ c, ∀ x ∈ xs, x = c) : ∃ a b : ℝ, mom (xs.map fin) = .ok (fin a, fin b) ∧ a < b ∧
    MatchesMoments xs (mean (fin a) (fin b)) (var (fin a) (fin b)) := by
  have hn : xs ≠ [] := by rintro rfl; exact hv ⟨0, by simp⟩
  have h0 : 0 < sampleVar xs := (sampleVar_nonneg xs).lt_of_ne' (mt (sampleVar_eq_zero hn).1 hv)
  have h1 : 0 < 3 * sampleVar xs := by positivity
  have hs := Real.sqrt_pos.2 h1
  set v := Real.sqrt (3 * sampleVar xs) with hvd
  have hq : v ^ 2 = 3 * sampleVar xs := Real.sq_sqrt h1.le
  have hab : sampleMean xs - v < sampleMean xs + v := by linarith
  refine ⟨sampleMean xs - v, sampleMean xs + v, ?_, hab, ?_, ?_⟩
  · simp only [mom, mean_fin hn, mean_sq_fin hn, ok_bind, mp.ipow_fin, fin_sub, ofNat_def, fin_mul,
      sampleVar_eq hn, mp.sqrt_nonneg h1.le, pure_eq_ok, fin_add, hvd]
  · simp only [mean, validate_ok hab, ok_bind, fin_add, ofNat_def, fin_div _ (two_ne_zero (α := ℝ))]
    congr 2; ring
  · simp only [var, validate_ok hab, ok_bind, fin_sub, mp.ipow_fin, ofNat_def, fin_div _ (show (12:ℝ) ≠ 0 by norm_num)]
    congr 2
    rw [show sampleMean xs + v - (sampleMean xs - v) = 2 * v by ring, mul_pow, hq]; ring

/-- Non-vacuity: the data 1, 3, 8. -/
example : ¬ ∃ c : ℝ, ∀ x ∈ [(1:ℝ), 3, 8], x = c := by
  rintro ⟨c, h⟩
  have h1 := h 1 (by simp)
  have h2 := h 3 (by simp)
  linarith

end Mpsci.uniform
