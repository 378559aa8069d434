import Verif.Lemmas.Dist.Lognormal

/-! Properties of `lognormal`. To the left of the support `sf` raises AttributeError (`raises_left`), so that C01, C07
and C48 hold only in part. -/

namespace Mpsci.lognormal

open Classical Num Spec common Filter Topology Set

variable {m s : ℝ}

/-- C01 on `(0, ∞)`. Missing: `x ≤ 0`, where `sf` raises (`raises_left`). -/
theorem complementary_partial (hs : 0 < s) {x : ℝ} (hx : 0 < x) : ∃ u v : ℝ,
    cdf (fin x) (fin m) (fin s) = .ok (fin u) ∧ sf (fin x) (fin m) (fin s) = .ok (fin v) ∧ u + v = 1 :=
  ⟨_, _, cdf_eval hs x, sf_eval hs hx, by ring⟩

/-- C01 and C07 fail for `x ≤ 0`: with admissible parameters `sf` raises AttributeError. -/
theorem raises_left (hs : 0 < s) {x : ℝ} (hx : x ≤ 0) :
    sf (fin x) (fin m) (fin s) = .error .attributeError ∧
    ¬ Complementary (cdf · (fin m) (fin s)) (sf · (fin m) (fin s)) ∧
    ¬ ValidatesExactly (0 < s) (sf (fin x) (fin m) (fin s)) := by
  refine ⟨sf_left hs hx, fun h => ?_, fun h => ?_⟩
  · obtain ⟨_, _, _, h2, _⟩ := h x
    exact absurd ((sf_left hs hx).symm.trans h2) (by simp)
  · obtain ⟨v, hv⟩ := h.1 hs
    rw [sf_left hs hx] at hv; exact absurd hv (by simp)

/-- C02 -/
theorem isCdf (hs : 0 < s) : IsCdf (cdf · (fin m) (fin s)) := (isDist hs).isCdf (cdf_eval hs)

/-- C03 -/
theorem isDensity (hs : 0 < s) : IsDensity ∅ (Ici 0) (pdf · (fin m) (fin s)) (cdf · (fin m) (fin s)) :=
  (isDist hs).isDensity (fun x _ => pdf_eval hs x) (cdf_eval hs) fun x hx => f_zero (le_of_not_ge hx)

/-- C04 -/
theorem isLogOf (hs : 0 < s) : IsLogOf ∅ (pdf · (fin m) (fin s)) (logpdf · (fin m) (fin s)) := by
  intro x _
  rcases le_or_gt x 0 with hx | hx
  · exact ⟨0, le_rfl, (pdf_eval hs x).trans (by rw [f_zero hx]), by rw [if_pos rfl]; exact logpdf_left hs hx⟩
  · exact ⟨_, (f_pos hs hx).le, pdf_eval hs x, by
      rw [if_neg (f_pos hs hx).ne', ← nl_eq hs hx]; exact logpdf_nl hs hx⟩

/-- C05 -/
theorem inverts_cdf (hs : 0 < s) : Inverts (Ioi 0) (cdf · (fin m) (fin s)) (invcdf · (fin m) (fin s)) :=
  inverts_of (fun x _ => cdf_eval hs x) (fun _ => invcdf_eval hs) (fun _ => F_Q hs) (fun _ => Q_F hs)

/-- C05 -/
theorem inverts_sf (hs : 0 < s) : Inverts (Ioi 0) (sf · (fin m) (fin s)) (invsf · (fin m) (fin s)) :=
  inverts_compl (fun _ hx => sf_eval hs hx) (fun _ => invsf_eval hs) (fun _ => F_Q hs) (fun _ => Q_F hs)

/-- C06 -/
theorem rejects_p : RejectsBadP (invcdf · (fin m) (fin s)) ∧ RejectsBadP (invsf · (fin m) (fin s)) := by
  constructor <;> intro p hp <;> simp [invcdf, invsf, validateP_bad hp]

/-- C07 (for `sf` on `x ≤ 0` see `raises_left`) -/
theorem validates (x : ℝ) :
    ValidatesExactly (0 < s) (cdf (fin x) (fin m) (fin s)) ∧
    (0 < x → ValidatesExactly (0 < s) (sf (fin x) (fin m) (fin s))) ∧
    ValidatesExactly (0 < s) (pdf (fin x) (fin m) (fin s)) ∧
    ValidatesExactly (0 < s) (logpdf (fin x) (fin m) (fin s)) := by
  refine ⟨⟨fun h => ⟨_, cdf_eval h x⟩, fun h => ?_⟩, fun hx => ⟨fun h => ⟨_, sf_eval h hx⟩, fun h => ?_⟩,
    ⟨fun h => ⟨_, pdf_eval h x⟩, fun h => ?_⟩, ⟨fun h => logpdf_returns h x, fun h => ?_⟩⟩ <;>
  simp [cdf, sf, pdf, logpdf, validate_bad h]

/-- C12: `log X` is normal: for `x > 0` the functions of `lognormal` are those of `normal` at `log x`. -/
theorem eq_normal (hs : 0 < s) {x : ℝ} (hx : 0 < x) :
    cdf (fin x) (fin m) (fin s) = normal.cdf (fin (Real.log x)) (fin m) (fin s) ∧
    sf (fin x) (fin m) (fin s) = normal.sf (fin (Real.log x)) (fin m) (fin s) ∧
    pdf (fin x) (fin m) (fin s) = (do let v ← normal.pdf (fin (Real.log x)) (fin m) (fin s); v /. fin x) := by
  rw [cdf_eval hs, sf_eval hs hx, pdf_eval hs, normal.cdf_eval hs, normal.sf_eval hs, normal.pdf_eval hs]
  simp [F, f, not_le.2 hx, fin_div _ hx.ne']

/-- C09 -/
theorem isMode (hs : 0 < s) : IsMode ∅ (pdf · (fin m) (fin s)) (mode (fin m) (fin s)) := by
  refine isMode_of (m := Real.exp (m - s * s)) (by simp [mode, validate_ok hs]) (fun x _ => pdf_eval hs x) (by simp)
    fun y _ => ?_
  have hq := Real.exp_pos (m - s * s)
  rcases le_or_gt y 0 with hy | hy
  · rw [f_zero hy]; exact (f_pos hs hq).le
  · rw [← Real.log_le_log_iff (f_pos hs hy) (f_pos hs hq), ← nl_eq hs hy, ← nl_eq hs hq, Real.log_exp, normal.nl,
      normal.nl, neg_le_neg_iff, ← sub_nonneg]
    have : Real.log (2 * Real.pi) / 2 + Real.log s + (Real.log y - m) ^ 2 / (2 * s ^ 2) + Real.log y -
        (Real.log (2 * Real.pi) / 2 + Real.log s + (m - s * s - m) ^ 2 / (2 * s ^ 2) + (m - s * s)) =
        (Real.log y - (m - s * s)) ^ 2 / (2 * s ^ 2) := by field_simp; ring
    rw [this]; positivity

/-- C37 -/
theorem isMean (hs : 0 < s) : IsMean ∅ (pdf · (fin m) (fin s)) (mean (fin m) (fin s)) :=
  (hasMV hs).isMean finite_empty (fun x _ => pdf_eval hs x)
    (by simp [mean, validate_ok hs, fin_div _ (two_ne_zero (α := ℝ)), pow_two])

/-- C37 -/
theorem isVar (hs : 0 < s) : IsVar ∅ (pdf · (fin m) (fin s)) (var (fin m) (fin s)) :=
  (hasMV hs).isVar finite_empty (fun x _ => pdf_eval hs x) (by simp [var, validate_ok hs, pow_two])

/-- C37 -/
theorem isSkewness (hs : 0 < s) : IsSkewness ∅ (pdf · (fin m) (fin s)) (skewness (fin m) (fin s)) := by
  refine isSkewness_of finite_empty (fun x _ => pdf_eval hs x) (isDist hs) (isDist hs).f_nonneg (F_aff hs)
    (by simpa using int01_pow s 1) (int01_pow s 2) (int01_pow s 3) fun _ => ?_
  have h1 : 1 < Real.exp (s ^ 2) := Real.one_lt_exp_iff.2 (by positivity)
  simp only [skewness, validate_ok hs, ok_bind, fin_mul, mp.exp_fin, mp.expm1_fin, ofNat_def, fin_add, ← pow_two,
    mp.sqrt_nonneg (sub_nonneg.2 h1.le), pure_eq_ok]
  congr 2
  set e := Real.exp (s ^ 2)
  set r := Real.exp (s ^ 2 / 2)
  have hr : 0 < r := Real.exp_pos _
  have er : r ^ 2 = e := by rw [← Real.exp_nat_mul]; congr 1; push_cast; ring
  have e2 : Real.exp ((2:ℕ) ^ 2 * s ^ 2 / 2) = r ^ 4 := by
    rw [← Real.exp_nat_mul]; congr 1; push_cast; ring
  have e3 : Real.exp ((3:ℕ) ^ 2 * s ^ 2 / 2) = r ^ 9 := by
    rw [← Real.exp_nat_mul]; congr 1; push_cast; ring
  have hm := Real.exp_pos m
  set a := Real.exp m
  rw [e2, e3]
  have h0 : 0 < e - 1 := sub_pos.2 h1
  have hv : a ^ 2 * (r ^ 4 - r ^ 2) = (a * r * Real.sqrt (e - 1)) ^ 2 := by
    rw [mul_pow, Real.sq_sqrt h0.le, ← er]; ring
  have hp : (a ^ 2 * (r ^ 4 - r ^ 2)) ^ (3 / 2 : ℝ) = (a * r * Real.sqrt (e - 1)) ^ 3 := by
    rw [hv, ← Real.rpow_natCast, ← Real.rpow_mul (by positivity)]; norm_num
  rw [hp]
  have hq : 0 < Real.sqrt (e - 1) := Real.sqrt_pos.2 h0
  have hqq : Real.sqrt (e - 1) ^ 2 = r ^ 2 - 1 := by rw [Real.sq_sqrt h0.le, er]
  rw [← er] at *
  set q := Real.sqrt (r ^ 2 - 1)
  rw [eq_div_iff (by positivity)]
  have : q ^ 4 = (r ^ 2 - 1) ^ 2 := by rw [← hqq]; ring
  linear_combination a ^ 3 * r ^ 3 * (r ^ 2 + 2) * this

/-- C37 -/
theorem isKurtosis (hs : 0 < s) : IsKurtosis ∅ (pdf · (fin m) (fin s)) (kurtosis (fin m) (fin s)) := by
  refine isKurtosis_of finite_empty (fun x _ => pdf_eval hs x) (isDist hs) (isDist hs).f_nonneg (F_aff hs)
    (by simpa using int01_pow s 1) (int01_pow s 2) (int01_pow s 3) (int01_pow s 4) fun _ hv => ?_
  simp only [kurtosis, validate_ok hs, ok_bind, fin_mul, mp.exp_fin, ofNat_def, fin_add, fin_sub, ← pow_two,
    pure_eq_ok]
  congr 2
  set r := Real.exp (s ^ 2 / 2)
  have e (n k : ℕ) (h : n ^ 2 = k) : Real.exp ((n:ℝ) ^ 2 * s ^ 2 / 2) = r ^ k := by
    rw [← Real.exp_nat_mul, ← h]; congr 1; push_cast; ring
  have e' (n : ℕ) : Real.exp (n * s ^ 2) = r ^ (2 * n) := by
    rw [← Real.exp_nat_mul]; congr 1; push_cast; ring
  rw [e 2 4 rfl] at hv
  rw [e 2 4 rfl, e 3 9 rfl, e 4 16 rfl]
  have e4 := e' 4; have e3 := e' 3; have e2 := e' 2
  norm_num at e4 e3 e2
  rw [e4, e3, e2, eq_sub_iff_add_eq, eq_div_iff (by positivity)]
  ring

/-- C37 -/
theorem isEntropy (hs : 0 < s) : IsEntropy ∅ (pdf · (fin m) (fin s)) (entropy (fin m) (fin s)) := by
  have h1 : 0 < 2 * Real.pi := by have := Real.pi_pos; positivity
  refine (hasEnt hs).isEntropy finite_empty (fun x _ => pdf_eval hs x) ?_
  simp only [entropy, validate_ok hs, ok_bind, mp.log_pos hs, mp.pi_def, ofNat_def, fin_mul, mp.log_pos h1, fin_add,
    pure_eq_ok]

/-- C50 -/
theorem isMoment (hs : 0 < s) (n : ℕ) :
    IsMoment ∅ (pdf · (fin m) (fin s)) n (noncentralMoment n (fin m) (fin s)) := by
  refine isMoment_of_int01 finite_empty (fun x _ => pdf_eval hs x) (isDist hs) (fun p h0 h1 => (F_Q hs h0 h1).2)
    (v := Real.exp (n * m) * Real.exp ((n:ℝ) ^ 2 * s ^ 2 / 2)) ?_ ?_
  · refine ((int01_pow s n).mul (Real.exp (n * m))).congr fun p _ _ => ?_
    rw [Q, Real.exp_add, mul_pow, Real.exp_nat_mul]
  · simp only [noncentralMoment, validateMomentN, not_lt.2 (Int.natCast_nonneg n), if_false, ok_bind, validate_ok hs,
      Int.toNat_natCast, fin_mul, ofNat_def, fin_div _ (two_ne_zero (α := ℝ)), fin_add, mp.exp_fin, pure_eq_ok,
      ← Real.exp_add]
    congr 3; ring

/-- C50: a negative order is rejected. -/
theorem moment_negative {n : ℤ} (hn : n < 0) (m s : Num) : noncentralMoment n m s = .error .valueError := by
  simp [noncentralMoment, validateMomentN, hn]

/-- C41 -/
theorem endPoints (hs : 0 < s) : EndPoints (invcdf · (fin m) (fin s)) 0 pinf ∧
    EndPoints (invsf · (fin m) (fin s)) pinf 0 := by
  have h2 : 0 < Real.sqrt 2 * s := mul_pos (by positivity) hs
  have e1 : (2:ℝ) - 1 = 1 := by norm_num
  refine ⟨⟨?_, ?_⟩, ⟨?_, ?_⟩⟩ <;>
  simp [invcdf, invsf, validateP_ok, validate_ok hs, normal.sqrt2, scaleInf_pos h2, e1]

/-- C48 for `cdf` and for `sf(+inf)`. Missing: `sf(-inf)`, which raises AttributeError instead of returning 1. -/
theorem atInfinities_partial (hs : 0 < s) : cdf ninf (fin m) (fin s) = .ok 0 ∧ cdf pinf (fin m) (fin s) = .ok 1 ∧
    sf pinf (fin m) (fin s) = .ok 0 ∧ sf ninf (fin m) (fin s) = .error .attributeError := by
  refine ⟨?_, ?_, ?_, ?_⟩ <;>
  simp [cdf, sf, mp.ncdf3, mp.log, validate_ok hs, pinf_div_pos hs, ninf_div_pos hs]

theorem support_eq (hs : 0 < s) : support (fin m) (fin s) = .ok (0, pinf) := by
  simp [support, validate_ok hs]

/-- C30 -/
theorem nll_spec (hs : 0 < s) : NllIsNegSum (Ioi 0) (logpdf · (fin m) (fin s)) (nll · (fin m) (fin s)) :=
  nll_of_fsum (fun _ hx => logpdf_nl hs hx) fun xs hx => by
    simp only [nll, validate_ok hs, ok_bind, validateX hx (Or.inr rfl)]

/-- C30 -/
theorem nll_rejects (hs : 0 < s) : NllRejects (Ioi 0) (nll · (fin m) (fin s)) := fun xs h => by
  simp only [nll, validate_ok hs, ok_bind, validateX_bad (by simpa using h)]; rfl

/-- C31: unless all data are equal, the estimate maximises the likelihood over all `mu` and all `sigma > 0`. -/
theorem mle_isMle {xs : List ℝ} (hn : xs ≠ []) (hx : ∀ x ∈ xs, 0 < x) (hv : ¬ ∃ c, ∀ x ∈ xs, x = c) :
    ∃ m s : ℝ, mle (xs.map fin) = .ok (fin m, fin s) ∧
    IsMle (fun θ : ℝ × ℝ => 0 < θ.2) (fun θ => nll (xs.map fin) (fin θ.1) (fin θ.2)) (m, s) := by
  have hn' : xs.map Real.log ≠ [] := by simpa using hn
  have h0 : 0 < sampleVar (xs.map Real.log) := by
    refine (sampleVar_nonneg _).lt_of_ne' (mt (sampleVar_eq_zero hn').1 fun ⟨c, hc⟩ => hv ⟨Real.exp c, fun x h => ?_⟩)
    rw [← hc _ (List.mem_map_of_mem h), Real.exp_log (hx x h)]
  have hs := Real.sqrt_pos.2 h0
  refine ⟨_, _, mle_eval hn hx, hs, _, nll_eval hs hx, fun θ hθ => ⟨_, nll_eval hθ hx, ?_⟩⟩
  exact (fin_le _ _).2 (add_le_add_left (normal_nll_min hn' h0 _ _ hθ) _)

/-- C31, C32: data that are not positive are rejected. -/
theorem fit_rejects {xs : List ℝ} (hx : ∃ x ∈ xs, x ≤ 0) :
    mle (xs.map fin) = .error .valueError ∧ mom (xs.map fin) = .error .valueError := by
  constructor <;> simp only [mle, mom, validateX_bad hx] <;> rfl

/-- C32: unless all data are equal, `mom` returns admissible parameters, whose mean and variance are the sample
mean and variance. -/
theorem mom_matches {xs : List ℝ} (hn : xs ≠ []) (hx : ∀ x ∈ xs, 0 < x) (hv : ¬ ∃ c, ∀ x ∈ xs, x = c) :
    ∃ m s : ℝ, mom (xs.map fin) = .ok (fin m, fin s) ∧ 0 < s ∧
      MatchesMoments xs (mean (fin m) (fin s)) (var (fin m) (fin s)) := by
  obtain ⟨m, s, h, ⟨h0, h1⟩, h2, h3⟩ := mom_eval hn hx
  have hs : 0 < s := h0.lt_of_ne' fun e => hv ((sampleVar_eq_zero hn).1 (h1.1 e))
  refine ⟨m, s, h, hs, ?_, ?_⟩
  · simp [mean, validate_ok hs, fin_div _ (two_ne_zero (α := ℝ)), ← pow_two, ← h2]
  · simp [var, validate_ok hs, ← pow_two, ← h3]

/-- C32: if all data are equal, `mom` returns `sigma = 0`, which `mean` and `var` reject. -/
theorem mom_constant {xs : List ℝ} (hn : xs ≠ []) (hx : ∀ x ∈ xs, 0 < x) (hv : ∃ c, ∀ x ∈ xs, x = c) :
    ∃ m : ℝ, mom (xs.map fin) = .ok (fin m, 0) ∧ mean (fin m) 0 = .error .valueError ∧
      var (fin m) 0 = .error .valueError := by
  obtain ⟨m, s, h, ⟨h0, h1⟩, -, -⟩ := mom_eval hn hx
  have e := h1.2 ((sampleVar_eq_zero hn).2 hv)
  exact ⟨m, by rw [h, e]; rfl, by simp [mean, validate], by simp [var, validate]⟩

/-- Non-vacuity: `mu = 0`, `sigma = 2` is admissible, `cdf(1) = 1/2`; the data 1, 3 are positive and not all equal. -/
example : cdf (fin 1) (fin 0) (fin 2) = .ok (fin (1 / 2)) ∧ (∀ x ∈ [(1:ℝ), 3], 0 < x) ∧
    ¬ ∃ c : ℝ, ∀ x ∈ [(1:ℝ), 3], x = c := by
  refine ⟨?_, by simp, ?_⟩
  · rw [cdf_eval (by norm_num)]; simp [F, Phi_zero]
  · rintro ⟨c, hc⟩
    have h1 := hc 1 (by simp)
    have h2 := hc 3 (by simp)
    linarith

end Mpsci.lognormal
