import Verif.Lemmas.Fit.Pareto
import Verif.Lemmas.Dist.Weibull
import Verif.Lemmas.Dist.WeibullMax
import Verif.Lemmas.Stats.Basic
import Verif.Spec.RootFinder

/-! The likelihood of the Weibull distributions and the code shared by `weibull_min.mle` and `weibull_max.mle`. -/

namespace Mpsci

open Classical Num Spec

/-- `stats.pmean` without weights. -/
theorem pmean_fin {xs : List ℝ} (hn : xs ≠ []) (h0 : ∀ x ∈ xs, 0 < x) {p : ℝ} (hp : 0 < p) : ∃ s : ℝ, 0 < s ∧
    stats.pmean (xs.map fin) (fin p) = .ok (fin s) ∧ s ^ p = sampleMean (xs.map fun x => x ^ p) := by
  have hW := stats.goodWeights_none xs
  have G := stats.good_dat hn hW
  have P := stats.pos_dat (W := none) h0
  refine ⟨_, stats.pm_pos G P p, stats.pmean_eval hn h0 hW p, ?_⟩
  rw [stats.pm_rpow G P hp.ne', stats.avg_eq_wsum hW]
  simp [Spec.wsum, sampleMean]

end Mpsci

namespace Mpsci.weibull_common

open Classical Num Spec

variable {k s : ℝ} {ys : List ℝ}

/-- The means of `y^k` and of `y^k log y`. -/
noncomputable def A (ys : List ℝ) (k : ℝ) : ℝ := sampleMean (ys.map fun y => y ^ k)
noncomputable def D (ys : List ℝ) (k : ℝ) : ℝ := sampleMean (ys.map fun y => y ^ k * Real.log y)

/-- The negative log-likelihood per observation. -/
noncomputable def N (ys : List ℝ) (k s : ℝ) : ℝ :=
  -Real.log k + k * Real.log s - (k - 1) * sampleMean (ys.map Real.log) + A ys k / s ^ k

noncomputable def l (k s y : ℝ) : ℝ := Real.log k - k * Real.log s + (k - 1) * Real.log y - (y / s) ^ k

theorem sum_l (hn : ys ≠ []) (hs : 0 < s) (h0 : ∀ y ∈ ys, 0 < y) : -(ys.map (l k s)).sum = ys.length * N ys k s := by
  have e : ∀ y ∈ ys, l k s y = ((Real.log k - k * Real.log s) + (k - 1) * Real.log y) + -(1 / s ^ k) * y ^ k := fun y hy => by
    rw [l, Real.div_rpow (h0 y hy).le hs.le]; ring
  rw [List.map_congr_left e, List.sum_map_add, sum_map_affine ys Real.log, sum_eq_mean hn Real.log,
    List.sum_map_mul_left, sum_eq_mean hn (fun y => y ^ k), N, A]
  ring

theorem A_pos (hn : ys ≠ []) (h0 : ∀ y ∈ ys, 0 < y) (k : ℝ) : 0 < A ys k := by
  obtain ⟨y, hy⟩ := List.exists_mem_of_ne_nil _ hn
  exact sampleMean_pos (fun y hy => (Real.rpow_pos_of_pos (h0 y hy) k).le) ⟨y, hy, Real.rpow_pos_of_pos (h0 y hy) k⟩

theorem eqn1_eval (hn : ys ≠ []) (h0 : ∀ y ∈ ys, 0 < y) (hk : k ≠ 0) :
    mleKEqn1 (fin k) (ys.map fin) = .ok (fin (D ys k / A ys k - sampleMean (ys.map Real.log) - 1 / k)) := by
  have h1 : (ys.map fin).mapM mp.log = .ok ((ys.map Real.log).map fin) := mapM_logpdf fun x hx => mp.log_pos (h0 x hx)
  have h2 : (ys.map fin).mapM (fun y => mp.power y (fin k)) = .ok ((ys.map fun y => y ^ k).map fin) :=
    mapM_logpdf fun x hx => mp.power_pos (h0 x hx) k
  have hl := (length_pos hn).ne'
  have hA := (A_pos hn h0 k).ne'
  have h3 : (((ys.map fun y => y ^ k).map fin).zip ((ys.map Real.log).map fin)).map (fun p => p.1 * p.2) =
      (ys.map fun y => y ^ k * Real.log y).map fin := by
    rw [List.map_map, List.map_map, List.zip_map', List.map_map, List.map_map]; rfl
  have h4 : (ys.map fun y => y ^ k).sum ≠ 0 := by rw [sum_eq_mean hn]; exact mul_ne_zero hl hA
  simp only [mleKEqn1, h1, h2, ok_bind, h3, mp.fsum_fin, fin_div _ h4, len_fin, fin_div _ hl, one_def, fin_div _ hk, fin_sub, pure_eq_ok]
  rw [sum_eq_mean hn (fun y => y ^ k), sum_eq_mean hn Real.log, sum_eq_mean hn (fun y => y ^ k * Real.log y)]
  rw [show sampleMean (ys.map fun y => y ^ k) = A ys k from rfl, show sampleMean (ys.map fun y => y ^ k * Real.log y) = D ys k from rfl]
  congr 2; field_simp

theorem eqn2_eval (hn : ys ≠ []) (h0 : ∀ y ∈ ys, 0 < y) (hk : k ≠ 0) (hs : 0 < s) :
    mleKEqn2 (fin k) (ys.map fin) (fin s) = .ok (fin (1 / k - Real.log s + sampleMean (ys.map Real.log) +
      1 / s ^ k * (Real.log s * A ys k - D ys k))) := by
  have h1 : (ys.map fin).mapM mp.log = .ok ((ys.map Real.log).map fin) := mapM_logpdf fun x hx => mp.log_pos (h0 x hx)
  have h2 : (ys.map fin).mapM (fun y => mp.power y (fin k)) = .ok ((ys.map fun y => y ^ k).map fin) :=
    mapM_logpdf fun x hx => mp.power_pos (h0 x hx) k
  have h3 : (ys.map fin).mapM (fun y => do return (← mp.power y (fin k)) * (← mp.log y)) =
      .ok ((ys.map fun y => y ^ k * Real.log y).map fin) := mapM_logpdf fun x hx => by
    simp only [mp.power_pos (h0 x hx), mp.log_pos (h0 x hx), ok_bind, fin_mul, pure_eq_ok]
  have hl := (length_pos hn).ne'
  simp only [pure_eq_ok] at h3
  simp only [mleKEqn2, h1, h2, h3, ok_bind, mp.fsum_fin, len_fin, fin_div _ hl, one_def, fin_div _ hk, fin_sub, pure_eq_ok, mp.log_pos hs,
    mp.power_pos hs, fin_div _ (Real.rpow_pos_of_pos hs k).ne', fin_mul, fin_add]
  rw [sum_eq_mean hn (fun y => y ^ k), sum_eq_mean hn Real.log, sum_eq_mean hn (fun y => y ^ k * Real.log y)]
  rw [show sampleMean (ys.map fun y => y ^ k) = A ys k from rfl, show sampleMean (ys.map fun y => y ^ k * Real.log y) = D ys k from rfl]
  congr 2; field_simp

/-- For given `k` the power mean is the best scale. -/
theorem scale_min (hn : ys ≠ []) (h0 : ∀ y ∈ ys, 0 < y) {s' : ℝ} (hs : 0 < s) (hp : s ^ k = A ys k) (hs' : 0 < s') :
    N ys k s ≤ N ys k s' := by
  have h := log_add_div_min (A_pos hn h0 k) (Real.rpow_pos_of_pos hs' k)
  rw [Real.log_rpow hs', ← hp, Real.log_rpow hs, hp] at h
  simp only [N]
  rw [hp, div_self (A_pos hn h0 k).ne']
  linarith

theorem hasDerivAt_N (hk : 0 < k) (hs : 0 < s) (h0 : ∀ y ∈ ys, 0 < y) :
    HasDerivAt (fun k => N ys k s) (-1 / k + Real.log s - sampleMean (ys.map Real.log) +
      sampleMean (ys.map fun y => (y / s) ^ k * Real.log (y / s))) k := by
  have e : ∀ k, A ys k / s ^ k = sampleMean (ys.map fun y => (y / s) ^ k) := fun k => by
    rw [A, div_eq_mul_one_div, mul_comm, ← sampleMean_mul]
    exact sampleMean_congr fun y hy => by rw [Real.div_rpow (h0 y hy).le hs.le]; ring
  have h1 : HasDerivAt (fun k => sampleMean (ys.map fun y => (y / s) ^ k))
      (sampleMean (ys.map fun y => (y / s) ^ k * Real.log (y / s))) k :=
    hasDerivAt_mean fun y hy => (Real.hasStrictDerivAt_const_rpow (div_pos (h0 y hy) hs) k).hasDerivAt
  simp only [N, e]
  refine (((((hasDerivAt_id k).log hk.ne').neg.add ((hasDerivAt_id k).mul_const (Real.log s))).sub
    (((hasDerivAt_id k).sub_const 1).mul_const (sampleMean (ys.map Real.log)))).add h1).congr_deriv ?_
  simp only [id]; ring

theorem score2 (hs : 0 < s) (h0 : ∀ y ∈ ys, 0 < y) : sampleMean (ys.map fun y => (y / s) ^ k * Real.log (y / s)) =
    -(1 / s ^ k * (Real.log s * A ys k - D ys k)) := by
  have : sampleMean (ys.map fun y => (y / s) ^ k * Real.log (y / s)) =
      sampleMean (ys.map fun y => 1 / s ^ k * (y ^ k * Real.log y) + -(1 / s ^ k * Real.log s) * y ^ k) :=
    sampleMean_congr fun y hy => by
      rw [Real.div_rpow (h0 y hy).le hs.le, Real.log_div (h0 y hy).ne' hs.ne']; ring
  rw [this, sampleMean_add, sampleMean_mul, sampleMean_mul, ← A, ← D]
  ring

theorem rpow_mul_log_mono {u k k' : ℝ} (hu : 0 < u) (h : k ≤ k') : u ^ k * Real.log u ≤ u ^ k' * Real.log u := by
  rcases le_total 1 u with h1 | h1
  · exact mul_le_mul_of_nonneg_right (Real.rpow_le_rpow_of_exponent_le h1 h) (Real.log_nonneg h1)
  · exact mul_le_mul_of_nonpos_right (Real.rpow_le_rpow_of_exponent_ge hu h1 h) (Real.log_nonpos hu.le h1)

/-- For given scale, the root of the equation is the best `k`. -/
theorem k_min (hk : 0 < k) (hs : 0 < s) (h0 : ∀ y ∈ ys, 0 < y)
    (h : 1 / k - Real.log s + sampleMean (ys.map Real.log) + 1 / s ^ k * (Real.log s * A ys k - D ys k) = 0) {k' : ℝ} (hk' : 0 < k') :
    N ys k s ≤ N ys k' s := by
  have h1 : -1 / k + Real.log s - sampleMean (ys.map Real.log) + sampleMean (ys.map fun y => (y / s) ^ k * Real.log (y / s)) = 0 := by
    rw [score2 hs h0]; rw [show -1 / k = -(1 / k) by ring]; linarith
  have hm : ∀ t t', 0 < t → t ≤ t' →
      -1 / t + Real.log s - sampleMean (ys.map Real.log) + sampleMean (ys.map fun y => (y / s) ^ t * Real.log (y / s)) ≤
      -1 / t' + Real.log s - sampleMean (ys.map Real.log) + sampleMean (ys.map fun y => (y / s) ^ t' * Real.log (y / s)) :=
    fun t t' ht h => by
      have h2 := sampleMean_le (xs := ys) fun y hy => rpow_mul_log_mono (div_pos (h0 y hy) hs) h
      have h3 : 1 / t' ≤ 1 / t := one_div_le_one_div_of_le ht h
      rw [show -1 / t = -(1 / t) by ring, show -1 / t' = -(1 / t') by ring]
      linarith
  exact min_of_deriv_sign (h := fun k => N ys k s) (fun t ht => hasDerivAt_N ht hs h0) hk
    (fun t ht hta => by have := hm t k ht hta.le; linarith) (fun t hta => by have := hm k t hk hta.le; linarith) hk'

/-- The root of the equation for both, with the power mean as scale, is the best pair. -/
theorem both_min (hn : ys ≠ []) (h0 : ∀ y ∈ ys, 0 < y) (hk : 0 < k) (hs : 0 < s) (hp : s ^ k = A ys k)
    (h : D ys k / A ys k - sampleMean (ys.map Real.log) - 1 / k = 0) {k' s' : ℝ} (hk' : 0 < k') (hs' : 0 < s') :
    N ys k s ≤ N ys k' s' := by
  have hA := A_pos hn h0 k
  have hA' := A_pos hn h0 k'
  have h1 := log_add_div_min hA' (Real.rpow_pos_of_pos hs' k')
  rw [Real.log_rpow hs'] at h1
  set μ := D ys k / A ys k with hμ
  have h2 : Real.exp ((k' - k) * μ) * A ys k ≤ A ys k' := by
    have h3 : sampleMean (ys.map fun y => Real.exp ((k' - k) * μ) * ((1 - (k' - k) * μ) * y ^ k + (k' - k) * (y ^ k * Real.log y))) ≤ A ys k' := by
      refine sampleMean_le fun y hy => ?_
      have e : y ^ k' = y ^ k * (Real.exp ((k' - k) * μ) * Real.exp ((k' - k) * (Real.log y - μ))) := by
        rw [Real.rpow_def_of_pos (h0 y hy), Real.rpow_def_of_pos (h0 y hy), ← Real.exp_add, ← Real.exp_add]; congr 1; ring
      have h4 := Real.add_one_le_exp ((k' - k) * (Real.log y - μ))
      rw [e]
      have h5 := mul_le_mul_of_nonneg_left (mul_le_mul_of_nonneg_left h4 (Real.exp_pos ((k' - k) * μ)).le)
        (Real.rpow_pos_of_pos (h0 y hy) k).le
      refine le_trans (le_of_eq ?_) h5
      ring
    rw [sampleMean_mul, sampleMean_add, sampleMean_mul, sampleMean_mul, ← A, ← D] at h3
    have e : D ys k = μ * A ys k := by rw [hμ]; field_simp
    rw [e] at h3
    refine le_trans (le_of_eq ?_) h3
    ring
  have h3 := Real.log_le_log (by positivity) h2
  rw [Real.log_mul (Real.exp_pos _).ne' hA.ne', Real.log_exp] at h3
  have h4 : Real.log k' ≤ Real.log k + (k' - k) / k := by
    have := Real.log_le_sub_one_of_pos (div_pos hk' hk)
    rw [Real.log_div hk'.ne' hk.ne'] at this
    have e : (k' - k) / k = k' / k - 1 := by field_simp
    linarith
  have h5 : μ = sampleMean (ys.map Real.log) + 1 / k := by linarith
  have h6 : k * Real.log s = Real.log (A ys k) := by rw [← hp, Real.log_rpow hs]
  simp only [N]
  rw [hp, div_self hA.ne', h6]
  have h7 : (k' - k) * μ = (k' - k) * sampleMean (ys.map Real.log) + (k' - k) / k := by rw [h5]; ring
  linarith

variable {findroot : (Num → M Num) → Num → M Num} {loc : Num}

/-- What `mle` returns, for shifted data. -/
theorem mleShifted_k (hn : ys ≠ []) (h0 : ∀ y ∈ ys, 0 < y) (hk : 0 < k) : ∃ s : ℝ, 0 < s ∧
    mleShifted findroot (ys.map fin) (some (fin k)) loc none = .ok (fin k, loc, fin s) ∧ s ^ k = A ys k := by
  obtain ⟨s, hs, h1, h2⟩ := pmean_fin hn h0 hk
  refine ⟨s, hs, ?_, h2⟩
  simp [mleShifted, hk.not_ge, h1]

theorem mleShifted_scale (hf : SoundFinder findroot) (hn : ys ≠ []) (h0 : ∀ y ∈ ys, 0 < y) (hs : 0 < s) (hk : 0 < k) {a b : Num}
    (h : mleShifted findroot (ys.map fin) none loc (some (fin s)) = .ok (fin k, a, b)) : a = loc ∧ b = fin s ∧
    1 / k - Real.log s + sampleMean (ys.map Real.log) + 1 / s ^ k * (Real.log s * A ys k - D ys k) = 0 := by
  simp only [mleShifted, Option.mem_def, Option.some.injEq, exists_eq_left', zero_def, fin_le, hs.not_ge, if_false, reduceCtorEq, false_and,
    exists_false, pure_eq_ok, ok_bind] at h
  obtain ⟨med, -, h⟩ := ok_of_bind h
  obtain ⟨q, -, h⟩ := ok_of_bind h
  obtain ⟨lnr, -, h⟩ := ok_of_bind h
  have h1 : ∃ k0 r, findroot (fun k => mleKEqn2 k (ys.map fin) (fin s)) k0 = .ok r ∧ (r, loc, fin s) = (fin k, a, b) := by
    split_ifs at h with h2
    · obtain ⟨r, h3, h4⟩ := ok_of_bind h
      exact ⟨_, r, h3, Except.ok.inj h4⟩
    · obtain ⟨u, -, h⟩ := ok_of_bind h
      obtain ⟨u', -, h⟩ := ok_of_bind h
      obtain ⟨u'', -, h⟩ := ok_of_bind h
      obtain ⟨r, h3, h4⟩ := ok_of_bind h
      exact ⟨_, r, h3, Except.ok.inj h4⟩
  obtain ⟨k0, r, h2, h3⟩ := h1
  obtain ⟨rfl, h4⟩ := Prod.mk.inj h3
  obtain ⟨rfl, rfl⟩ := Prod.mk.inj h4
  have h5 := hf _ _ _ h2
  rw [eqn2_eval hn h0 hk.ne' hs, zero_def] at h5
  exact ⟨rfl, rfl, fin.inj (Except.ok.inj h5)⟩

theorem mleShifted_both (hf : SoundFinder findroot) (hn : ys ≠ []) (h0 : ∀ y ∈ ys, 0 < y) (hk : 0 < k) {a b : Num}
    (h : mleShifted findroot (ys.map fin) none loc none = .ok (fin k, a, b)) : a = loc ∧ ∃ s : ℝ, 0 < s ∧ b = fin s ∧ s ^ k = A ys k ∧
    D ys k / A ys k - sampleMean (ys.map Real.log) - 1 / k = 0 := by
  simp only [mleShifted, Option.mem_def, if_false, reduceCtorEq, false_and, exists_false, pure_eq_ok, ok_bind] at h
  obtain ⟨r, h2, h⟩ := ok_of_bind h
  obtain ⟨q, h3, h4⟩ := ok_of_bind h
  obtain ⟨rfl, h8⟩ := Prod.mk.inj (Except.ok.inj h4)
  obtain ⟨rfl, rfl⟩ := Prod.mk.inj h8
  obtain ⟨s, hs, h5, h6⟩ := pmean_fin hn h0 hk
  rw [h5] at h3
  have h7 := hf _ _ _ h2
  rw [eqn1_eval hn h0 hk.ne', zero_def] at h7
  exact ⟨rfl, s, hs, (Except.ok.inj h3).symm, h6, fin.inj (Except.ok.inj h7)⟩

end Mpsci.weibull_common

namespace Mpsci.weibull_min

open Classical Num Spec common weibull_common

variable {k s loc : ℝ} {xs : List ℝ}

theorem logpdf_l (hk : 0 < k) (hs : 0 < s) {x : ℝ} (h : loc < x) :
    logpdf (fin x) (fin k) (fin loc) (fin s) = .ok (fin (l k s (x - loc))) := by
  have h1 : 0 < x - loc := by linarith
  have h' : 0 < (x - loc) / s := div_pos h1 hs
  simp only [logpdf, validate_ok _ hk hs, ok_bind, fin_eq, h.ne', if_false, fin_lt, h.not_gt,
    fin_sub, fin_div _ hs.ne', mp.log_pos hk, mp.log_pos hs, mp.log_pos h1, mp.power_pos h',
    pure_eq_ok, fin_mul, fin_add, one_def, l]

theorem bounds (h : ∀ x ∈ xs, loc < x) : validateXBounds (xs.map fin) (some (fin loc)) none true false = .ok (xs.map fin) :=
  validateXBounds_ok (by rw [badLow_strict]; push Not; exact h) (by simp)

theorem nll_unfold (hk : 0 < k) (hs : 0 < s) (h : ∀ x ∈ xs, loc < x) : nll (xs.map fin) (fin k) (fin loc) (fin s) =
    (do return -(mp.fsum (← (xs.map fin).mapM (logpdf · (fin k) (fin loc) (fin s))))) := by
  simp only [nll, validate_ok _ hk hs, ok_bind, bounds h]

theorem nll_eval (hn : xs ≠ []) (hk : 0 < k) (hs : 0 < s) (h : ∀ x ∈ xs, loc < x) :
    nll (xs.map fin) (fin k) (fin loc) (fin s) = .ok (fin (xs.length * N (xs.map fun x => x - loc) k s)) := by
  rw [nll_unfold hk hs h, mapM_logpdf fun x hx => logpdf_l hk hs (h x hx)]
  simp only [ok_bind, mp.fsum_fin, neg_fin, pure_eq_ok]
  have := sum_l (ys := xs.map fun x => x - loc) (k := k) (s := s) (by simpa using hn) hs (by simpa using h)
  rw [List.map_map, List.length_map] at this
  rw [← this]; rfl

theorem mle_shift {findroot : (Num → M Num) → Num → M Num} (h : ∀ x ∈ xs, loc < x) (k scale : Option Num) :
    mle findroot (xs.map fin) k (some (fin loc)) scale =
    mleShifted findroot ((xs.map fun x => x - loc).map fin) k (fin loc) scale := by
  simp only [mle, bounds h, ok_bind, List.map_map]
  rfl

end Mpsci.weibull_min

namespace Mpsci.weibull_max

open Classical Num Spec common weibull_common

variable {k s loc : ℝ} {xs : List ℝ}

theorem logpdf_l (hk : 0 < k) (hs : 0 < s) {x : ℝ} (h : x < loc) :
    logpdf (fin x) (fin k) (fin loc) (fin s) = .ok (fin (l k s (-x + loc))) := by
  rw [logpdf_mirror, weibull_min.logpdf_l hk hs (neg_lt_neg h), sub_neg_eq_add]

theorem bounds (h : ∀ x ∈ xs, x < loc) : validateXBounds (xs.map fin) none (some (fin loc)) false true = .ok (xs.map fin) :=
  validateXBounds_ok (by simp [badLow]) (by rw [badHigh_strict]; push Not; exact h)

theorem nll_unfold (hk : 0 < k) (hs : 0 < s) (h : ∀ x ∈ xs, x < loc) : nll (xs.map fin) (fin k) (fin loc) (fin s) =
    (do return -(mp.fsum (← (xs.map fin).mapM (logpdf · (fin k) (fin loc) (fin s))))) := by
  simp only [nll, validate_ok _ hk hs, ok_bind, bounds h]

theorem nll_eval (hn : xs ≠ []) (hk : 0 < k) (hs : 0 < s) (h : ∀ x ∈ xs, x < loc) :
    nll (xs.map fin) (fin k) (fin loc) (fin s) = .ok (fin (xs.length * N (xs.map fun x => -x + loc) k s)) := by
  rw [nll_unfold hk hs h, mapM_logpdf fun x hx => logpdf_l hk hs (h x hx)]
  simp only [ok_bind, mp.fsum_fin, neg_fin, pure_eq_ok]
  have := sum_l (ys := xs.map fun x => -x + loc) (k := k) (s := s) (by simpa using hn) hs
    (by simp only [List.mem_map, forall_exists_index, and_imp, forall_apply_eq_imp_iff₂]; intro x hx; have := h x hx; linarith)
  rw [List.map_map, List.length_map] at this
  rw [← this]; rfl

theorem mle_shift {findroot : (Num → M Num) → Num → M Num} (h : ∀ x ∈ xs, x < loc) (k scale : Option Num) :
    mle findroot (xs.map fin) k (some (fin loc)) scale =
    mleShifted findroot ((xs.map fun x => -x + loc).map fin) k (fin loc) scale := by
  simp only [mle, bounds h, ok_bind, List.map_map]
  rfl

end Mpsci.weibull_max
