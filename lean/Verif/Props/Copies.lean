import Verif.Spec.Copies
import Verif.Props.Mirror
import Verif.Props.Stats.Var
import Verif.Props.Fit.Benini
import Verif.Props.Dist.Genpareto
import Verif.Props.Dist.Hypsecant
import Verif.Props.Fit.BetaPrime
import Verif.Props.Fit.Burr12
import Verif.Props.Fit.Gompertz
import Verif.Props.Fit.Kumaraswamy
import Verif.Props.Fit.LogGamma
import Verif.Props.Fit.Nakagami

/-! C81: repeated data and pooled samples. -/

namespace Mpsci.copies

open Classical Num Spec common

variable {xs : List ℝ} {k : ℕ}

theorem mem_copies {α : Type} {xs : List α} (hk : 0 < k) {x : α} : x ∈ Spec.copies k xs ↔ x ∈ xs := by
  simp [Spec.copies, hk.ne']

theorem ne_nil (hk : 0 < k) (hn : xs ≠ []) : Spec.copies k xs ≠ [] := by
  obtain ⟨x, hx⟩ := List.exists_mem_of_ne_nil _ hn
  exact List.ne_nil_of_mem ((mem_copies hk).2 hx)

theorem map_copies {α β : Type} (f : α → β) (xs : List α) (k : ℕ) : (Spec.copies k xs).map f = Spec.copies k (xs.map f) := by
  simp [Spec.copies, List.map_flatten]

theorem sum_copies (xs : List ℝ) (k : ℕ) : (Spec.copies k xs).sum = k * xs.sum := by
  simp [Spec.copies, List.sum_flatten]

theorem length_copies {α : Type} (xs : List α) (k : ℕ) : (Spec.copies k xs).length = k * xs.length := by
  simp [Spec.copies, List.length_flatten]

theorem mean_copies (hk : 0 < k) (xs : List ℝ) : sampleMean (Spec.copies k xs) = sampleMean xs := by
  have : (k:ℝ) ≠ 0 := by exact_mod_cast hk.ne'
  rw [sampleMean, sampleMean, sum_copies, length_copies, Nat.cast_mul, mul_div_mul_left _ _ this]

theorem meanMap_copies (hk : 0 < k) (xs : List ℝ) (φ : ℝ → ℝ) : sampleMean ((Spec.copies k xs).map φ) = sampleMean (xs.map φ) := by
  rw [map_copies, mean_copies hk]

theorem sampleVar_def (xs : List ℝ) : sampleVar xs = sampleMean (xs.map fun x => (x - sampleMean xs) ^ 2) := by
  simp only [sampleVar, sampleMean, List.length_map]

theorem var_copies (hk : 0 < k) (xs : List ℝ) : sampleVar (Spec.copies k xs) = sampleVar xs := by
  rw [sampleVar_def, mean_copies hk, meanMap_copies hk, ← sampleVar_def]

theorem all_copies (hk : 0 < k) {P : ℝ → Prop} (h : ∀ x ∈ xs, P x) : ∀ x ∈ Spec.copies k xs, P x :=
  fun x hx => h x ((mem_copies hk).1 hx)

theorem var_pos (hn : xs ≠ []) (hv : ¬ ∃ c, ∀ x ∈ xs, x = c) : 0 < sampleVar xs :=
  (sampleVar_nonneg xs).lt_of_ne' (mt (sampleVar_eq_zero hn).1 hv)

theorem notConst (hk : 0 < k) (hv : ¬ ∃ c, ∀ x ∈ xs, x = c) : ¬ ∃ c, ∀ x ∈ Spec.copies k xs, x = c := by
  rintro ⟨c, h⟩
  exact hv ⟨c, fun x hx => h x ((mem_copies hk).2 hx)⟩

/-- A function whose value is a function `V` of the data that does not see the copies. -/
theorem repeats {α : Type} {ok : List ℝ → Prop} {f : List Num → M α} {V : List ℝ → α}
    (hok : ∀ (xs : List ℝ) k, 0 < k → ok xs → ok (Spec.copies k xs)) (ev : ∀ xs : List ℝ, xs ≠ [] → ok xs → f (xs.map fin) = .ok (V xs))
    (hV : ∀ (xs : List ℝ) k, 0 < k → V (Spec.copies k xs) = V xs) : Repeats ok f :=
  fun xs hn h => ⟨V xs, ev xs hn h, fun k hk => by rw [ev _ (ne_nil hk hn) (hok xs k hk h), hV xs k hk]⟩

/-! Statistics -/

/-- C81: `mean` -/
theorem mean : Repeats (fun _ => True) (stats.mean ·) :=
  repeats (V := fun xs => fin (sampleMean xs)) (fun _ _ _ _ => trivial) (fun _ hn _ => mean_fin hn) fun xs _ hk => by rw [mean_copies hk]

theorem var_eval (hn : xs ≠ []) : stats.var (xs.map fin) = .ok (fin (sampleVar xs)) := by
  have hl := (length_pos hn).ne'
  simp only [stats.var, mp.fsum_fin, len_fin, fin_div _ hl, ok_bind, zero_def, fin_sub, sub_zero, List.map_map, Function.comp_def, fin_mul]
  rw [mp.fsum_map_fin, fin_div _ hl, sampleVar]
  simp only [sampleMean, sq]

/-- C81: `var` with `ddof = 0` -/
theorem var : Repeats (fun _ => True) (stats.var ·) :=
  repeats (V := fun xs => fin (sampleVar xs)) (fun _ _ _ _ => trivial) (fun _ hn _ => var_eval hn) fun xs _ hk => by rw [var_copies hk]

/-- C81: `std` with `ddof = 0` -/
theorem std : Repeats (fun _ => True) (stats.std ·) :=
  repeats (V := fun xs => fin (Real.sqrt (sampleVar xs))) (fun _ _ _ _ => trivial)
    (fun xs hn _ => by simp only [stats.std, var_eval hn, ok_bind, mp.sqrt_nonneg (sampleVar_nonneg xs)]) fun xs _ hk => by rw [var_copies hk]

theorem avg_none (xs : List ℝ) (φ : ℝ → ℝ) : stats.avg (stats.dat xs none) φ = sampleMean (xs.map φ) := by
  have h1 : stats.dat xs none = xs.map fun x => (x, 1) := by
    simp only [stats.dat, Option.getD_none]
    induction xs with
    | nil => rfl
    | cons a t ih => simp only [List.length_cons, List.replicate_succ, List.zip_cons_cons, ih, List.map_cons]
  rw [h1, stats.avg, sampleMean]
  simp [List.map_map, Function.comp_def]

theorem avg_copies (hk : 0 < k) (xs : List ℝ) (φ : ℝ → ℝ) : stats.avg (stats.dat (Spec.copies k xs) none) φ = stats.avg (stats.dat xs none) φ := by
  rw [avg_none, avg_none, meanMap_copies hk]

theorem pm_copies (hk : 0 < k) (xs : List ℝ) (p : ℝ) : stats.pm (stats.dat (Spec.copies k xs) none) p = stats.pm (stats.dat xs none) p := by
  simp only [stats.pm, avg_copies hk]

/-- C81: `pmean` with any real power -/
theorem pmean (p : ℝ) : Repeats (fun xs => ∀ x ∈ xs, 0 < x) (stats.pmean · (fin p)) :=
  repeats (V := fun xs => fin (stats.pm (stats.dat xs none) p)) (fun _ _ hk h => all_copies hk h)
    (fun xs hn hx => stats.pmean_eval hn hx (stats.goodWeights_none xs) p) fun xs _ hk => by rw [pm_copies hk]

/-- C81: `gmean` -/
theorem gmean : Repeats (fun xs => ∀ x ∈ xs, 0 < x) (stats.gmean ·) :=
  repeats (V := fun xs => fin (Real.exp (stats.avg (stats.dat xs none) Real.log))) (fun _ _ hk h => all_copies hk h)
    (fun xs hn hx => stats.gmean_eval hn hx (stats.goodWeights_none xs)) fun xs _ hk => by rw [avg_copies hk]

/-- C81: `hmean` -/
theorem hmean : Repeats (fun xs => ∀ x ∈ xs, 0 < x) (stats.hmean ·) :=
  repeats (V := fun xs => fin (1 / stats.avg (stats.dat xs none) fun t => 1 / t)) (fun _ _ hk h => all_copies hk h)
    (fun xs hn hx => stats.hmean_eval hn hx (stats.goodWeights_none xs)) fun xs _ hk => by rw [avg_copies hk]

/-- C81: `lehmer_mean`, except for the power 1/2, where the code returns the geometric mean (see `gmean`) -/
theorem lehmer_mean {p : ℝ} (hp : p ≠ 1 / 2) : Repeats (fun xs => ∀ x ∈ xs, 0 < x) (stats.lehmerMean · (fin p)) :=
  repeats (V := fun xs => fin (stats.avg (stats.dat xs none) (fun t => t ^ p) / stats.avg (stats.dat xs none) fun t => t ^ (p - 1)))
    (fun _ _ hk h => all_copies hk h)
    (fun xs hn hx => stats.lehmer_eval hn hx (stats.goodWeights_none xs) hp) fun xs _ hk => by rw [avg_copies hk, avg_copies hk]

/-! Fits -/

/-- C81: `normal.mle` -/
theorem normal_mle : Repeats (fun _ => True) normal.mle :=
  repeats (V := fun xs => (fin (sampleMean xs), fin (Real.sqrt (sampleVar xs)))) (fun _ _ _ _ => trivial) (fun _ hn _ => normal.mle_eq hn)
    fun xs _ hk => by rw [mean_copies hk, var_copies hk]

/-- C81: `laplace.mom` -/
theorem laplace_mom : Repeats (fun _ => True) laplace.mom :=
  repeats (V := fun xs => (fin (sampleMean xs), fin (Real.sqrt (sampleVar xs / 2)))) (fun _ _ _ _ => trivial)
    (fun _ hn _ => mirror.laplace_eval hn) fun xs _ hk => by rw [mean_copies hk, var_copies hk]

/-- C81: `logistic.mom` -/
theorem logistic_mom : Repeats (fun _ => True) logistic.mom :=
  repeats (V := fun xs => (fin (sampleMean xs), fin (Real.sqrt (3 * sampleVar xs) / Real.pi))) (fun _ _ _ _ => trivial)
    (fun _ hn _ => mirror.logistic_eval hn) fun xs _ hk => by rw [mean_copies hk, var_copies hk]

/-- C81: `gumbel_max.mom` -/
theorem gumbel_max_mom : Repeats (fun _ => True) gumbel_max.mom :=
  repeats (V := fun xs => (fin (sampleMean xs - Real.sqrt (6 * sampleVar xs) / Real.pi * Real.eulerMascheroniConstant),
      fin (Real.sqrt (6 * sampleVar xs) / Real.pi))) (fun _ _ _ _ => trivial)
    (fun xs hn _ => by
      have h := sampleVar_nonneg xs
      simp only [gumbel_max.mom, mean_fin hn, mean_sq_fin hn, ok_bind, mp.ipow_fin, fin_sub, ofNat_def, fin_mul,
        sampleVar_eq hn, mp.sqrt_nonneg (show 0 ≤ 6 * sampleVar xs by positivity), mp.pi_def, fin_div _ Real.pi_ne_zero, mp.euler, pure_eq_ok])
    fun xs _ hk => by rw [mean_copies hk, var_copies hk]

/-- C81: `gumbel_min.mom` -/
theorem gumbel_min_mom : Repeats (fun _ => True) gumbel_min.mom :=
  repeats (V := fun xs => (fin (sampleMean xs + Real.sqrt (6 * sampleVar xs) / Real.pi * Real.eulerMascheroniConstant),
      fin (Real.sqrt (6 * sampleVar xs) / Real.pi))) (fun _ _ _ _ => trivial)
    (fun xs hn _ => by
      have h := sampleVar_nonneg xs
      simp only [gumbel_min.mom, mean_fin hn, mean_sq_fin hn, ok_bind, mp.ipow_fin, fin_sub, ofNat_def, fin_mul, fin_add,
        sampleVar_eq hn, mp.sqrt_nonneg (show 0 ≤ 6 * sampleVar xs by positivity), mp.pi_def, fin_div _ Real.pi_ne_zero, mp.euler, pure_eq_ok])
    fun xs _ hk => by rw [mean_copies hk, var_copies hk]

/-- C81: `uniform.mom` -/
theorem uniform_mom : Repeats (fun _ => True) uniform.mom :=
  repeats (V := fun xs => (fin (sampleMean xs - Real.sqrt (3 * sampleVar xs)), fin (sampleMean xs + Real.sqrt (3 * sampleVar xs))))
    (fun _ _ _ _ => trivial)
    (fun xs hn _ => by
      have h := sampleVar_nonneg xs
      simp only [uniform.mom, mean_fin hn, mean_sq_fin hn, ok_bind, mp.ipow_fin, fin_sub, ofNat_def, fin_mul, fin_add,
        sampleVar_eq hn, mp.sqrt_nonneg (show 0 ≤ 3 * sampleVar xs by positivity), pure_eq_ok])
    fun xs _ hk => by rw [mean_copies hk, var_copies hk]

theorem min_copies (hk : 0 < k) (hn : xs ≠ []) : ∃ m ∈ xs, (∀ x ∈ xs, m ≤ x) ∧ py.min (xs.map fin) = .ok (fin m) ∧
    py.min ((Spec.copies k xs).map fin) = .ok (fin m) := by
  obtain ⟨l, a1, a2, a3⟩ := py.min_fin hn
  obtain ⟨l', c1, c2, c3⟩ := py.min_fin (ne_nil hk hn)
  have e : l' = l := le_antisymm (c2 l ((mem_copies hk).2 a1)) (a2 l' ((mem_copies hk).1 c1))
  exact ⟨l, a1, a2, a3, e ▸ c3⟩

theorem max_copies (hk : 0 < k) (hn : xs ≠ []) : ∃ m ∈ xs, (∀ x ∈ xs, x ≤ m) ∧ py.max (xs.map fin) = .ok (fin m) ∧
    py.max ((Spec.copies k xs).map fin) = .ok (fin m) := by
  obtain ⟨l, a1, a2, a3⟩ := py.max_fin hn
  obtain ⟨l', c1, c2, c3⟩ := py.max_fin (ne_nil hk hn)
  have e : l' = l := le_antisymm (a2 l' ((mem_copies hk).1 c1)) (c2 l ((mem_copies hk).2 a1))
  exact ⟨l, a1, a2, a3, e ▸ c3⟩

/-- C81: `uniform.mle` -/
theorem uniform_mle : Repeats (fun _ => True) uniform.mle := by
  intro xs hn _
  obtain ⟨l, -, -, h1, -⟩ := min_copies one_pos hn
  obtain ⟨r, -, -, h2, -⟩ := max_copies one_pos hn
  refine ⟨(fin l, fin r), by simp only [uniform.mle, h1, h2, ok_bind, pure_eq_ok], fun k hk => ?_⟩
  obtain ⟨l', -, -, h3, h4⟩ := min_copies hk hn
  obtain ⟨r', -, -, h5, h6⟩ := max_copies hk hn
  rw [← h3, h1] at h4
  rw [← h5, h2] at h6
  simp only [uniform.mle, h4, h6, ok_bind, pure_eq_ok]

/-- C81: `lognormal.mle` -/
theorem lognormal_mle : Repeats (fun xs => ∀ x ∈ xs, 0 < x) lognormal.mle :=
  fun xs hn hx => ⟨_, lognormal.mle_eval hn hx, fun k hk => by
    rw [lognormal.mle_eval (ne_nil hk hn) (all_copies hk hx), map_copies, mean_copies hk, var_copies hk]⟩

/-- C81: `lognormal.mom` -/
theorem lognormal_mom : Repeats (fun xs => ∀ x ∈ xs, 0 < x) lognormal.mom := by
  intro xs hn hx
  obtain ⟨m, s, h, ⟨h0, -⟩, h2, h3⟩ := lognormal.mom_eval hn hx
  refine ⟨_, h, fun k hk => ?_⟩
  obtain ⟨m', s', h', ⟨h0', -⟩, h2', h3'⟩ := lognormal.mom_eval (ne_nil hk hn) (all_copies hk hx)
  rw [mean_copies hk, ← h2, Real.exp_eq_exp] at h2'
  rw [var_copies hk, ← h3] at h3'
  have e1 : 2 * m' + s' ^ 2 = 2 * m + s ^ 2 := by linarith
  rw [e1] at h3'
  have e2 := mul_right_cancel₀ (Real.exp_pos (2 * m + s ^ 2)).ne' h3'
  have e3 : s' = s := by
    have : s' ^ 2 = s ^ 2 := Real.exp_injective (by linarith)
    exact (pow_left_inj₀ h0' h0 two_ne_zero).1 this
  subst e3
  rw [h', show m' = m by linarith]

/-- C81: `gamma.mom`, for data that are not all equal -/
theorem gamma_mom : Repeats (fun xs => (∀ x ∈ xs, 0 < x) ∧ ¬ ∃ c, ∀ x ∈ xs, x = c) gamma.mom :=
  repeats (V := fun xs => (fin (sampleMean xs ^ 2 / sampleVar xs), fin (sampleVar xs / sampleMean xs)))
    (fun _ _ hk h => ⟨all_copies hk h.1, notConst hk h.2⟩)
    (fun xs hn h => by
      simp only [gamma.mom, mean_fin hn, var_eval hn, ok_bind, mp.ipow_fin, fin_div _ (var_pos hn h.2).ne',
        fin_div _ (gamma.mean_pos hn h.1).ne', pure_eq_ok])
    fun xs _ hk => by rw [mean_copies hk, var_copies hk]

variable {findrootB : (Num → M Num) → Num → Num → M Num} {findroot : (Num → M Num) → Num → M Num}
  {findroot2 : (Num → Num → M (Num × Num)) → Num × Num → M (Num × Num)}

/-- C81: `gamma.mle` with nothing fixed, after any number of Newton steps; for data that are not all equal -/
theorem gamma_mle (steps : ℕ) : Repeats (fun xs => (∀ x ∈ xs, 0 < x) ∧ ¬ ∃ c, ∀ x ∈ xs, x = c) (gamma.mle findrootB · none none steps) :=
  repeats (V := fun ys => (fin (gamma.seq (Real.log (sampleMean ys) - sampleMean (ys.map Real.log)) (gamma.start (Real.log (sampleMean ys) - sampleMean (ys.map Real.log))) steps),
      fin (sampleMean ys / gamma.seq (Real.log (sampleMean ys) - sampleMean (ys.map Real.log)) (gamma.start (Real.log (sampleMean ys) - sampleMean (ys.map Real.log))) steps)))
    (fun _ _ hk h => ⟨all_copies hk h.1, notConst hk h.2⟩)
    (fun ys hn h => by
      have hc : 0 < Real.log (sampleMean ys) - sampleMean (ys.map Real.log) := sub_pos.2 (gamma.log_mean_lt h.1 h.2)
      obtain ⟨k, hk, he⟩ := gamma.D_root hc
      obtain ⟨hpos, -⟩ := gamma.seq_tendsto hc hk he
      obtain ⟨m1, m2⟩ := gamma.means hn h.1
      simp only [gamma.mle, gamma.logs h.1, ok_bind, m1, m2, gamma.mleK_eval (gamma.mean_pos hn h.1) hc, fin_div _ (hpos steps).ne', pure_eq_ok])
    fun xs _ hk => by rw [mean_copies hk, meanMap_copies hk]

/-- C81: `gamma.mle` with a fixed shape -/
theorem gamma_mle_shape {a : ℝ} (ha : 0 < a) (steps : ℕ) : Repeats (fun xs => ∀ x ∈ xs, 0 < x) (gamma.mle findrootB · (some (fin a)) none steps) :=
  repeats (V := fun ys => (fin a, fin (sampleMean ys / a))) (fun _ _ hk h => all_copies hk h)
    (fun ys hn h => by
      obtain ⟨m1, m2⟩ := gamma.means hn h
      simp only [gamma.mle, gamma.logs h, ok_bind, m1, m2, fin_div _ ha.ne', pure_eq_ok])
    fun xs _ hk => by rw [mean_copies hk]

/-- C81: `gamma.mle` with a fixed scale, for any root finder: the two calls return the same value or the same error. -/
theorem gamma_mle_scale (hk : 0 < k) (hn : xs ≠ []) (hx : ∀ x ∈ xs, 0 < x) {s : ℝ} (steps : ℕ) :
    gamma.mle findrootB ((Spec.copies k xs).map fin) none (some (fin s)) steps = gamma.mle findrootB (xs.map fin) none (some (fin s)) steps := by
  obtain ⟨m1, m2⟩ := gamma.means hn hx
  obtain ⟨m3, m4⟩ := gamma.means (ne_nil hk hn) (all_copies hk hx)
  simp only [gamma.mle, gamma.logs hx, gamma.logs (all_copies hk hx), ok_bind, m1, m2, m3, m4, meanMap_copies hk]

/-- C81: `pareto.mle` with a fixed location below the data, for data that are not all equal -/
theorem pareto_mle_loc {loc : ℝ} : Repeats (fun xs => (∀ x ∈ xs, loc < x) ∧ ¬ ∃ c, ∀ x ∈ xs, x = c)
    (pareto.mle findroot findroot2 · .none (.fixed (fin loc)) .none) := by
  intro xs hn h
  obtain ⟨m, hm, hm', em, -⟩ := min_copies one_pos hn
  have ev : ∀ ys : List ℝ, ys ≠ [] → (∀ x ∈ ys, loc < x) → (¬ ∃ c, ∀ x ∈ ys, x = c) → m ∈ ys → (∀ x ∈ ys, m ≤ x) → py.min (ys.map fin) = .ok (fin m) →
      pareto.mle findroot findroot2 (ys.map fin) .none (.fixed (fin loc)) .none =
        .ok (fin (1 / (sampleMean (ys.map fun x => Real.log (x - loc)) - Real.log (m - loc))), fin loc, fin (m - loc)) := by
    intro ys hn hx hv hm hm' em
    have hs : 0 < m - loc := by have := hx m hm; linarith
    have hge : ∀ x ∈ ys, loc + (m - loc) ≤ x := fun x h => by have := hm' x h; linarith
    have hA := pareto.meanLog_gt hv hs hge
    simp only [pareto.mle, bounds_weak fun x h => (hx x h).le, ok_bind, em, fin_sub, pareto.sumLog_eval hx, pareto.fsum_mean hn, mp.log_pos hs,
      one_def, fin_div _ hA.ne', pure_eq_ok]
  refine ⟨_, ev xs hn h.1 h.2 hm hm' em, fun k hk => ?_⟩
  obtain ⟨m', -, -, e1, e2⟩ := min_copies hk hn
  rw [← e1, em] at e2
  show pareto.mle findroot findroot2 _ _ _ _ = _
  rw [ev _ (ne_nil hk hn) (all_copies hk h.1) (notConst hk h.2) ((mem_copies hk).2 hm) (all_copies hk hm') e2, meanMap_copies hk]

/-- C81: `pareto.mle` with a fixed scale, for data that are not all equal -/
theorem pareto_mle_scale {s : ℝ} (hs : 0 < s) : Repeats (fun xs => ¬ ∃ c, ∀ x ∈ xs, x = c)
    (pareto.mle findroot findroot2 · .none .none (.fixed (fin s))) := by
  intro xs hn hv
  obtain ⟨m, hm, hm', em, -⟩ := min_copies one_pos hn
  have ev : ∀ ys : List ℝ, ys ≠ [] → (¬ ∃ c, ∀ x ∈ ys, x = c) → (∀ x ∈ ys, m ≤ x) → py.min (ys.map fin) = .ok (fin m) →
      pareto.mle findroot findroot2 (ys.map fin) .none .none (.fixed (fin s)) =
        .ok (fin (1 / (sampleMean (ys.map fun x => Real.log (x - (m - s))) - Real.log s)), fin (m - s), fin s) := by
    intro ys hn hv hm' em
    have hge : ∀ x ∈ ys, m - s + s ≤ x := fun x h => by have := hm' x h; linarith
    have hgt : ∀ x ∈ ys, m - s < x := fun x h => by have := hm' x h; linarith
    have hA := pareto.meanLog_gt hv hs hge
    simp only [pareto.mle, pareto.mle.freeB, one_def, pareto.validate_ok one_pos hs, validateXBounds_all, ok_bind, em, fin_sub, pareto.sumLog_eval hgt,
      pareto.fsum_mean hn, mp.log_pos hs, fin_div _ hA.ne', pure_eq_ok]
  refine ⟨_, ev xs hn hv hm' em, fun k hk => ?_⟩
  obtain ⟨m', -, -, e1, e2⟩ := min_copies hk hn
  rw [← e1, em] at e2
  show pareto.mle findroot findroot2 _ _ _ _ = _
  rw [ev _ (ne_nil hk hn) (notConst hk hv) (all_copies hk hm') e2, meanMap_copies hk]

section weibull
open weibull_common

variable {ys : List ℝ}

theorem eqn1_copies (hk : 0 < k) (hn : ys ≠ []) (hy : ∀ y ∈ ys, 0 < y) (a : ℝ) :
    mleKEqn1 (fin a) ((Spec.copies k ys).map fin) = mleKEqn1 (fin a) (ys.map fin) := by
  rcases eq_or_ne a 0 with rfl | ha
  · rw [affine.eqn1_zero hn hy, affine.eqn1_zero (ne_nil hk hn) (all_copies hk hy)]
  · rw [eqn1_eval hn hy ha, eqn1_eval (ne_nil hk hn) (all_copies hk hy) ha]
    simp only [A, D, meanMap_copies hk]

theorem shifted_copies {loc : Num} (hf : SeesReals findroot) (hk : 0 < k) (hn : ys ≠ []) (hy : ∀ y ∈ ys, 0 < y) {a : ℝ} {l s : Num}
    (h : mleShifted findroot (ys.map fin) none loc none = .ok (fin a, l, s)) :
    mleShifted findroot ((Spec.copies k ys).map fin) none loc none = .ok (fin a, l, s) := by
  have e := hf (fun a => mleKEqn1 a ((Spec.copies k ys).map fin)) (fun a => mleKEqn1 a (ys.map fin)) (eqn1_copies hk hn hy) 1
  simp only [mleShifted, Option.not_mem_none, false_and, exists_false, if_false, one_def] at h ⊢
  obtain ⟨v, h1, h2⟩ := ok_of_bind h
  obtain ⟨w, h3, h4⟩ := ok_of_bind h2
  obtain ⟨rfl, h5⟩ := Prod.mk.inj (Except.ok.inj h4)
  obtain ⟨rfl, rfl⟩ := Prod.mk.inj h5
  obtain ⟨v, h6, h7⟩ := pmean a ys hn hy
  beta_reduce at h6 h7
  rw [h6] at h3
  rw [e, h1]
  simp only [ok_bind, h7 k hk, pure_eq_ok, Except.ok.inj h3]

/-- C81: `weibull_min.mle` with the location given -/
theorem weibull_min_mle (hf : SeesReals findroot) (hk : 0 < k) (hn : xs ≠ []) {loc : ℝ} (hx : ∀ x ∈ xs, loc < x) {a : ℝ} {l s : Num}
    (h : weibull_min.mle findroot (xs.map fin) none (some (fin loc)) none = .ok (fin a, l, s)) :
    weibull_min.mle findroot ((Spec.copies k xs).map fin) none (some (fin loc)) none = .ok (fin a, l, s) := by
  obtain ⟨hn', h0⟩ := weibull_min.shifted_pos hn hx
  rw [weibull_min.mle_shift hx] at h
  rw [weibull_min.mle_shift (all_copies hk hx), map_copies]
  exact shifted_copies hf hk hn' h0 h

/-- C81: `weibull_max.mle` with the location given -/
theorem weibull_max_mle (hf : SeesReals findroot) (hk : 0 < k) (hn : xs ≠ []) {loc : ℝ} (hx : ∀ x ∈ xs, x < loc) {a : ℝ} {l s : Num}
    (h : weibull_max.mle findroot (xs.map fin) none (some (fin loc)) none = .ok (fin a, l, s)) :
    weibull_max.mle findroot ((Spec.copies k xs).map fin) none (some (fin loc)) none = .ok (fin a, l, s) := by
  obtain ⟨hn', h0⟩ := weibull_max.shifted_pos hn hx
  rw [weibull_max.mle_shift hx] at h
  rw [weibull_max.mle_shift (all_copies hk hx), map_copies]
  exact shifted_copies hf hk hn' h0 h

end weibull

/-! The median of repeated data -/

theorem getElem?_flat (hk : 0 < k) (s : List ℝ) (i : ℕ) : (s.flatMap fun a => List.replicate k a)[i]? = s[i / k]? := by
  induction s generalizing i with
  | nil => simp
  | cons a t ih =>
    rw [List.flatMap_cons]
    rcases lt_or_ge i k with h | h
    · rw [List.getElem?_append_left (by simpa using h), Nat.div_eq_of_lt h]
      simp [h]
    · rw [List.getElem?_append_right (by simpa using h), List.length_replicate, ih]
      obtain ⟨j, rfl⟩ := Nat.exists_eq_add_of_le h
      rw [Nat.add_sub_cancel_left, Nat.add_div_left _ hk]; rfl

theorem flat_perm (xs : List ℝ) (k : ℕ) : (xs.flatMap fun a => List.replicate k a).Perm (Spec.copies k xs) := by
  rw [List.perm_iff_count]
  intro a
  simp only [Spec.copies, List.count_flatten, List.map_replicate, List.sum_replicate, smul_eq_mul]
  induction xs with
  | nil => simp
  | cons b t ih =>
    rw [List.flatMap_cons, List.count_append, ih, List.count_cons, List.count_replicate]
    split_ifs <;> ring

theorem sorted_copies (xs : List ℝ) (k : ℕ) : (Spec.copies k xs).insertionSort (fun s t => s ≤ t) =
    (xs.insertionSort fun s t => s ≤ t).flatMap fun a => List.replicate k a := by
  refine List.Perm.eq_of_pairwise (le := fun s t : ℝ => s ≤ t) (fun a b _ _ h h' => le_antisymm h h') (List.pairwise_insertionSort _ _) ?_ ?_
  · have h := List.pairwise_insertionSort (fun s t : ℝ => s ≤ t) xs
    generalize xs.insertionSort (fun s t => s ≤ t) = s at h
    induction s with
    | nil => simp
    | cons a t ih =>
      rw [List.flatMap_cons, List.pairwise_append]
      rw [List.pairwise_cons] at h
      refine ⟨?_, ih h.2, fun x hx y hy => ?_⟩
      · rw [List.pairwise_replicate]; exact Or.inr le_rfl
      · obtain rfl := List.eq_of_mem_replicate hx
        obtain ⟨b, hb, hy⟩ := List.mem_flatMap.1 hy
        rw [List.eq_of_mem_replicate hy]
        exact h.1 b hb
  · refine (List.perm_insertionSort _ _).trans ((flat_perm xs k).symm.trans ?_)
    exact (List.perm_insertionSort (fun s t : ℝ => s ≤ t) xs).symm.flatMap_right _

theorem mleLoc_copies (hn : xs ≠ []) : ∃ m : ℝ, laplace.mleLoc (xs.map fin) = .ok (fin m) ∧
    ∀ k : ℕ, 0 < k → laplace.mleLoc ((Spec.copies k xs).map fin) = .ok (fin m) := by
  have hl0 : 0 < xs.length := List.length_pos_iff.2 hn
  unfold laplace.mleLoc
  simp only [py.sorted_fin, sorted_copies]
  set s := xs.insertionSort (fun a b => a ≤ b) with hs
  have hp : s.Perm xs := List.perm_insertionSort _ _
  rw [← hp.length_eq] at hl0
  have hlen : ∀ k : ℕ, (s.flatMap fun a => List.replicate k a).length = k * s.length := fun k => by
    simp [List.length_flatMap, mul_comm]
  have item : ∀ i : ℕ, (h : i < s.length) → py.item (s.map fin) (i : ℤ) = .ok (fin s[i]) := fun i h => by
    rw [py.item_nat (by simpa using h)]; simp
  have item' : ∀ k : ℕ, 0 < k → ∀ i j : ℕ, i < k * s.length → i / k = j → (h : j < s.length) →
      py.item ((s.flatMap fun a => List.replicate k a).map fin) (i : ℤ) = .ok (fin s[j]) := fun k hk i j hi e h => by
    rw [py.item_nat (by simpa [hlen] using hi)]
    have h2 := getElem?_flat hk s i
    rw [e, List.getElem?_eq_getElem h, List.getElem?_eq_getElem (by rw [hlen]; exact hi)] at h2
    rw [List.getElem_map, Option.some.inj h2]
  simp only [List.length_map, hlen]
  rcases Nat.even_or_odd' s.length with ⟨m, hm | hm⟩
  · have h1 : ¬ ((s.length : ℤ) % 2 = 1) := by omega
    have h2 : (s.length : ℤ) / 2 = (m : ℤ) := by omega
    have h3 : (m : ℤ) - 1 = ((m - 1 : ℕ) : ℤ) := by omega
    have hm1 : m - 1 < s.length := by omega
    have hm2 : m < s.length := by omega
    refine ⟨(s[m - 1] + s[m]) / 2, ?_, fun k hk => ?_⟩
    · simp only [h1, if_false, h2, h3, item _ hm1, item _ hm2, ok_bind, fin_add, ofNat_def,
        fin_div _ (two_ne_zero (α := ℝ))]
    · have hN : k * s.length = 2 * (k * m) := by rw [hm]; ring
      have hkm : 0 < k * m := Nat.mul_pos hk (by omega)
      have g1 : ¬ (((k * s.length : ℕ) : ℤ) % 2 = 1) := by omega
      have g2 : ((k * s.length : ℕ) : ℤ) / 2 = ((k * m : ℕ) : ℤ) := by omega
      have g3 : ((k * m : ℕ) : ℤ) - 1 = ((k * m - 1 : ℕ) : ℤ) := by omega
      have d1 : (k * m - 1) / k = m - 1 := by
        obtain ⟨j, rfl⟩ : ∃ j, m = j + 1 := ⟨m - 1, by omega⟩
        refine Nat.div_eq_of_lt_le ?_ ?_ <;> simp only [Nat.add_sub_cancel] <;> nlinarith [Nat.sub_add_cancel hkm]
      have d2 : k * m / k = m := Nat.mul_div_cancel_left m hk
      simp only [g1, if_false, g2, g3, item' k hk _ _ (show k * m - 1 < k * s.length by omega) d1 hm1,
        item' k hk _ _ (show k * m < k * s.length by omega) d2 hm2, ok_bind, fin_add, ofNat_def, fin_div _ (two_ne_zero (α := ℝ))]
  · have h1 : ((s.length : ℤ) % 2 = 1) := by omega
    have h2 : (s.length : ℤ) / 2 = (m : ℤ) := by omega
    have hm2 : m < s.length := by omega
    refine ⟨s[m], ?_, fun k hk => ?_⟩
    · simp only [h1, if_true, h2, item _ hm2]
    · have hN : k * s.length = 2 * (k * m) + k := by rw [hm]; ring
      have mid : ∀ i, k * m ≤ i → i < k * m + k → i / k = m := fun i h h' => by
        refine Nat.div_eq_of_lt_le ?_ ?_ <;> nlinarith
      rcases Nat.even_or_odd' k with ⟨j, hj | hj⟩
      · have g1 : ¬ (((k * s.length : ℕ) : ℤ) % 2 = 1) := by omega
        have g2 : ((k * s.length : ℕ) : ℤ) / 2 = ((k * m + j : ℕ) : ℤ) := by omega
        have g3 : ((k * m + j : ℕ) : ℤ) - 1 = ((k * m + j - 1 : ℕ) : ℤ) := by omega
        simp only [g1, if_false, g2, g3, item' k hk _ _ (show k * m + j - 1 < k * s.length by omega) (mid _ (by omega) (by omega)) hm2,
          item' k hk _ _ (show k * m + j < k * s.length by omega) (mid _ (by omega) (by omega)) hm2, ok_bind, fin_add, ofNat_def,
          fin_div _ (two_ne_zero (α := ℝ)), add_self_div_two]
      · have g1 : ((k * s.length : ℕ) : ℤ) % 2 = 1 := by omega
        have g2 : ((k * s.length : ℕ) : ℤ) / 2 = ((k * m + j : ℕ) : ℤ) := by omega
        simp only [g1, if_true, g2, item' k hk _ _ (show k * m + j < k * s.length by omega) (mid _ (by omega) (by omega)) hm2]

theorem meanAbs_copies (hk : 0 < k) (hn : xs ≠ []) (m : ℝ) : stats.mean (((Spec.copies k xs).map fin).map fun t => Num.abs (t - fin m)) =
    stats.mean ((xs.map fin).map fun t => Num.abs (t - fin m)) := by
  simp only [List.map_map, Function.comp_def, fin_sub, Num.abs]
  rw [mean_map hn fun x => |x - m|, mean_map (ne_nil hk hn) fun x => |x - m|, meanMap_copies hk]

/-- C81: `laplace.mle`, the median and the mean distance from it -/
theorem laplace_mle : Repeats (fun _ => True) (laplace.mle · none none) := by
  intro xs hn _
  obtain ⟨m, h1, h2⟩ := mleLoc_copies hn
  have h3 : stats.mean ((xs.map fin).map fun t => Num.abs (t - fin m)) = .ok (fin (sampleMean (xs.map fun x => |x - m|))) := by
    simp only [List.map_map, Function.comp_def, fin_sub, Num.abs]
    exact mean_map hn fun x => |x - m|
  refine ⟨(fin m, fin (sampleMean (xs.map fun x => |x - m|))), ?_, fun k hk => ?_⟩
  · simp only [laplace.mle, h1, ok_bind, h3, pure_eq_ok]
  · simp only [laplace.mle, h2 k hk, ok_bind, meanAbs_copies hk hn, h3, pure_eq_ok]

/-- C81: `laplace.mle` with a fixed location -/
theorem laplace_mle_loc (loc : ℝ) : Repeats (fun _ => True) (laplace.mle · (some (fin loc)) none) := by
  intro xs hn _
  have h3 : stats.mean ((xs.map fin).map fun t => Num.abs (t - fin loc)) = .ok (fin (sampleMean (xs.map fun x => |x - loc|))) := by
    simp only [List.map_map, Function.comp_def, fin_sub, Num.abs]
    exact mean_map hn fun x => |x - loc|
  refine ⟨(fin loc, fin (sampleMean (xs.map fun x => |x - loc|))), ?_, fun k hk => ?_⟩
  · simp only [laplace.mle, ok_bind, h3, pure_eq_ok]
  · simp only [laplace.mle, ok_bind, meanAbs_copies hk hn, h3, pure_eq_ok]

/-! Correlation -/

theorem corr_copies (hk : 0 < k) (d : List (ℝ × ℝ)) : corr (Spec.copies k d) = corr d := by
  have hk' : (0:ℝ) < k := by exact_mod_cast hk
  have av : ∀ g : List ℝ, average (Spec.copies k g) = average g := fun g => mean_copies hk g
  have sq : ∀ (c : ℝ) (g : List ℝ), sumSq c (Spec.copies k g) = k * sumSq c g := fun c g => by
    rw [sumSq, map_copies, sum_copies, sumSq]
  have e : sxy (Spec.copies k d) = k * sxy d := by
    rw [sxy, map_copies, map_copies, map_copies, sum_copies, av, av, sxy]
  rw [corr, corr, e, map_copies, map_copies, av, av, sq, sq, mul_mul_mul_comm, Real.sqrt_mul (by positivity), Real.sqrt_mul_self hk'.le,
    mul_div_mul_left _ _ hk'.ne']

/-- C81: `pearsonr` returns the same correlation; the p-value depends on the number of the data. -/
theorem pearsonr {d : List (ℝ × ℝ)} (hx : Varies (d.map Prod.fst)) (hy : Varies (d.map Prod.snd)) {alt : String}
    (ha : alt ∈ ["two-sided", "less", "greater"]) : ∃ r p : ℝ, stats.pearsonr (nums (d.map Prod.fst)) (nums (d.map Prod.snd)) alt = .ok (fin r, fin p) ∧
    ∀ k : ℕ, 0 < k → ∃ p' : ℝ,
      stats.pearsonr (nums ((Spec.copies k d).map Prod.fst)) (nums ((Spec.copies k d).map Prod.snd)) alt = .ok (fin r, fin p') := by
  obtain ⟨p, h, -⟩ := stats.pearsonr_value hx hy ha
  refine ⟨_, p, h, fun k hk => ?_⟩
  have vary : ∀ g : List ℝ, Varies g → Varies (Spec.copies k g) := by
    rintro g ⟨s, hs, t, ht, hne⟩
    exact ⟨s, (mem_copies hk).2 hs, t, (mem_copies hk).2 ht, hne⟩
  obtain ⟨p', h', -⟩ := stats.pearsonr_value (d := Spec.copies k d) (by rw [map_copies]; exact vary _ hx) (by rw [map_copies]; exact vary _ hy) ha
  exact ⟨p', by rw [h', corr_copies hk]⟩

/-- Non-vacuity: the pairs (1, 1), (2, 3). -/
example : Varies ([((1:ℝ), (1:ℝ)), (2, 3)].map Prod.fst) ∧ Varies ([((1:ℝ), (1:ℝ)), (2, 3)].map Prod.snd) :=
  ⟨⟨1, by simp, 2, by simp, by norm_num⟩, 1, by simp, 3, by simp, by norm_num⟩

/-! Likelihoods -/

theorem values_unique {f : Num → M Num} {zs ls ms : List ℝ} (h : List.Forall₂ (fun x l => f (fin x) = .ok (fin l)) zs ls)
    (h' : List.Forall₂ (fun x l => f (fin x) = .ok (fin l)) zs ms) : ls = ms := by
  induction h generalizing ms with
  | nil => cases h'; rfl
  | cons hd _ ih =>
    cases h' with
    | cons hd' tl' => rw [ih tl', fin.inj (Except.ok.inj (hd.symm.trans hd'))]

theorem pools {S : Set ℝ} {logpdf : Num → M Num} {nll : List Num → M Num} (h : NllIsNegSum S logpdf nll) : Pools S nll := by
  intro xs ys hx hy
  obtain ⟨ls, a1, a2⟩ := h xs hx
  obtain ⟨ms, b1, b2⟩ := h ys hy
  obtain ⟨ns, c1, c2⟩ := h (xs ++ ys) fun z hz => (List.mem_append.1 hz).elim (hx z) (hy z)
  refine ⟨-ls.sum, -ms.sum, a2, b2, ?_⟩
  have e : ns = ls ++ ms := values_unique c1 (List.rel_append a1 b1)
  rw [c2, e, List.sum_append, neg_add]

variable {a b c d s loc nu : ℝ}

/-- C81: the likelihoods of the families with a scale, or a location and a scale -/
theorem nll_location (hs : 0 < s) : Pools Set.univ (logistic.nll · (fin loc) (fin s)) ∧ Pools Set.univ (gumbel_max.nll · (fin loc) (fin s)) ∧
    Pools Set.univ (gumbel_min.nll · (fin loc) (fin s)) :=
  ⟨pools (logistic.nll_spec hs), pools (gumbel_max.nll_spec hs), pools (gumbel_min.nll_spec hs)⟩

/-- C81: the likelihoods of `normal`, `hypsecant` and `lognormal` -/
theorem nll_normal (hs : 0 < s) : Pools Set.univ (normal.nll · (fin loc) (fin s)) ∧ Pools Set.univ (hypsecant.nll · (fin loc) (fin s)) ∧
    Pools (Set.Ioi 0) (lognormal.nll · (fin loc) (fin s)) :=
  ⟨pools (normal.nll_spec hs), pools (hypsecant.nll_spec hs), pools (lognormal.nll_spec hs)⟩

/-- C81: the likelihood of `genpareto` -/
theorem nll_genpareto (hs : 0 < s) : Pools {x | loc ≤ x ∧ (a < 0 → x < loc - s / a)} (genpareto.nll · (fin a) (fin loc) (fin s)) :=
  pools (genpareto.nll_spec hs)

/-- C81: the likelihoods of the families on an interval -/
theorem nll_interval (ha : 0 < a) (hb : 0 < b) : Pools {x | 0 < x ∧ x < 1} (beta.nll · (fin a) (fin b)) ∧
    Pools (Set.Ioo 0 1) (kumaraswamy.nll · (fin a) (fin b)) :=
  ⟨pools (beta.nll_spec ha hb), pools (kumaraswamy.nll_spec ha hb)⟩

/-- C81: the likelihoods of the families on a half-line with one shape -/
theorem nll_shape (ha : 0 < a) (hs : 0 < s) : Pools {x | 0 < x} (gamma.nll · (fin a) (fin s)) ∧
    Pools {x | 0 ≤ x} (gompertz.nll · (fin a) (fin s)) ∧ Pools Set.univ (loggamma.nll · (fin a) (fin s)) ∧
    Pools (Set.Ioi loc) (nakagami.nll · (fin a) (fin loc) (fin s)) ∧ Pools {x | loc + s ≤ x} (pareto.nll · (fin a) (fin loc) (fin s)) ∧
    Pools {x | loc < x} (weibull_min.nll · (fin a) (fin loc) (fin s)) ∧ Pools {x | x < loc} (weibull_max.nll · (fin a) (fin loc) (fin s)) :=
  ⟨pools (gamma.nll_spec ha hs), pools (gompertz.nll_spec ha hs), pools (loggamma.nll_spec ha hs), pools (nakagami.nll_spec ha hs),
    pools (pareto.nll_spec ha hs), pools (weibull_min.nll_spec ha hs), pools (weibull_max.nll_spec ha hs)⟩

/-- C81: the likelihoods of the families on a half-line with two shapes -/
theorem nll_shapes (ha : 0 < a) (hb : 0 < b) (hs : 0 < s) : Pools {x | s ≤ x} (benini.nll · (fin a) (fin b) (fin s)) ∧
    Pools {x | 0 < x} (betaprime.nll · (fin a) (fin b) (fin s)) ∧ Pools {x | 0 < x} (burr12.nll · (fin a) (fin b) (fin s)) :=
  ⟨pools (benini.nll_spec ha hb hs), pools (betaprime.nll_spec ha hb hs), pools (burr12.nll_spec ha hb hs)⟩

/-- Non-vacuity: the data 1, 2 are positive, not all equal, and above the location 0; the data twice over are 1, 2, 1, 2. -/
example : [(1:ℝ), 2] ≠ [] ∧ (∀ x ∈ [(1:ℝ), 2], 0 < x) ∧ (¬ ∃ c, ∀ x ∈ [(1:ℝ), 2], x = c) ∧ Spec.copies 2 [(1:ℝ), 2] = [1, 2, 1, 2] := by
  refine ⟨by simp, by simp, ?_, rfl⟩
  rintro ⟨c, h⟩
  have h1 := h 1 (by simp)
  have h2 := h 2 (by simp)
  linarith

end Mpsci.copies
