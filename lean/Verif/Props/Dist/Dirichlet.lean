import Verif.Model.Dist.Dirichlet
import Verif.Spec.Stats
import Verif.Base.PyNum
import Verif.Lemmas.DirichletDist
import Verif.Lemmas.Dist.Beta
import Verif.Lemmas.Fun.Powm1
import Verif.Spec.Simplex
import Mathlib.Algebra.Order.Chebyshev
import Mathlib.Algebra.BigOperators.Fin
import Mathlib.Algebra.Order.BigOperators.Ring.Finset

/-!
# C45: mean and covariance of the Dirichlet distribution
-/

namespace Mpsci.dirichlet

open Classical Num Spec

variable {a : List ℝ}

theorem validate_ok (h : ∀ t ∈ a, 0 < t) : validateAlpha (nums a) = .ok (nums a) := by
  have : ¬ ∃ x ∈ nums a, x ≤ 0 := by
    simp only [nums, List.mem_map]
    rintro ⟨_, ⟨t, ht, rfl⟩, h2⟩
    exact absurd (h t ht) (by simpa using h2)
  simp only [validateAlpha, if_neg this]

/-- C45 a nonpositive parameter is rejected. -/
theorem rejects (h : ∃ t ∈ a, t ≤ 0) :
    mean (nums a) = .error .valueError ∧ cov (nums a) = .error .valueError := by
  have : ∃ x ∈ nums a, x ≤ 0 := by
    obtain ⟨t, ht, h⟩ := h
    exact ⟨fin t, List.mem_map.2 ⟨t, ht, rfl⟩, by simpa using h⟩
  have e : validateAlpha (nums a) = .error .valueError := by simp only [validateAlpha, if_pos this]
  exact ⟨by simp [mean, e], by simp [cov, e]⟩

theorem sum_pos (h : ∀ t ∈ a, 0 < t) (hne : a ≠ []) : 0 < a.sum :=
  List.sum_pos a h hne

theorem sum_map_div (a : List ℝ) (c : ℝ) : (a.map (· / c)).sum = a.sum / c := by
  induction a with
  | nil => simp
  | cons t a ih => simp [ih, add_div]

theorem ratios (h0 : a.sum ≠ 0) : (nums a).mapM (fun t => t /. fin a.sum) =
    (.ok (nums (a.map (· / a.sum))) : M _) := by
  rw [nums, List.mapM_map, py.mapM_fin (f := (fun t => t /. fin a.sum) ∘ fin)
    (g := fun t => t / a.sum) a fun t _ => fin_div _ h0]
  simp [nums]

/-- C45 the mean vector: `a_i / sum a`, with components in `(0, 1]` adding up to 1. -/
theorem mean_spec (h : ∀ t ∈ a, 0 < t) (hne : a ≠ []) : ∃ m : List ℝ,
    mean (nums a) = .ok (nums m) ∧ m = a.map (· / a.sum) ∧ m.sum = 1 ∧ ∀ t ∈ m, 0 < t ∧ t ≤ 1 := by
  have hs := sum_pos h hne
  refine ⟨a.map (· / a.sum), ?_, rfl, ?_, ?_⟩
  · simp only [mean, validate_ok h, ok_bind]
    rw [show mp.fsum (nums a) = fin a.sum from by rw [nums, mp.fsum_fin]]
    exact ratios hs.ne'
  · rw [sum_map_div, div_self hs.ne']
  · intro t ht
    obtain ⟨u, hu, rfl⟩ := List.mem_map.1 ht
    refine ⟨div_pos (h u hu) hs, (div_le_one hs).2 ?_⟩
    exact List.single_le_sum (fun x hx => (h x hx).le) u hu

/-- The covariance of components `i` and `j` of the Dirichlet distribution. -/
noncomputable def covFormula (a : List ℝ) (i j : ℕ) : ℝ :=
  if i = j then a.getD i 0 * (a.sum - a.getD i 0) / (a.sum ^ 2 * (a.sum + 1))
  else -(a.getD i 0 * a.getD j 0) / (a.sum ^ 2 * (a.sum + 1))

theorem inner_loop {r : ℕ → ℝ} {s : ℝ} (hs : s + 1 ≠ 0) (i : ℕ) : ∀ (l : List ℕ)
    (m : ℕ → ℕ → Num), i ∉ l → ∃ m', l.foldlM (covInner (fun i => fin (r i)) (fin s) i) m = .ok m' ∧
      ∀ p q, m' p q = if p = i ∧ q ∈ l then fin (-(r i) * r q / (s + 1))
        else if q = i ∧ p ∈ l then fin (-(r i) * r p / (s + 1)) else m p q := by
  intro l
  induction l with
  | nil => intro m _; exact ⟨m, rfl, fun p q => by simp⟩
  | cons j l ih =>
    intro m hi
    rw [List.mem_cons, not_or] at hi
    obtain ⟨m', h1, h2⟩ := ih (setAt (setAt m i j (fin (-(r i) * r j / (s + 1)))) j i
      (fin (-(r i) * r j / (s + 1)))) hi.2
    refine ⟨m', ?_, fun p q => ?_⟩
    · rw [List.foldlM_cons]
      simp only [covInner, neg_fin, fin_mul, one_def, fin_add, fin_div _ hs, ok_bind, pure_eq_ok]
      rw [show setAt m i j (fin (-r i * r j / (s + 1))) i j = fin (-r i * r j / (s + 1)) by
        simp [setAt]]
      exact h1
    · rw [h2]
      simp only [setAt, List.mem_cons]
      by_cases c1 : p = i <;> by_cases c2 : q = i
      · subst c1; subst c2; simp [hi.1, hi.2]
      · subst c1
        by_cases c3 : q ∈ l
        · simp [c3]
        · simp only [c3, and_false, if_false, or_false, true_and, c2, false_and]
          by_cases c4 : q = j
          · subst c4; simp
          · simp [c4]
      · subst c2
        by_cases c3 : p ∈ l
        · simp [c3, c1]
        · simp only [c3, and_false, if_false, or_false, true_and, c1, false_and, and_true]
          by_cases c4 : p = j
          · subst c4; simp
          · simp [c4]
      · simp [c1, c2]

theorem outer_loop {r : ℕ → ℝ} {s : ℝ} (hs : s + 1 ≠ 0) (n : ℕ) : ∀ k ≤ n,
    ∃ m, (List.range k).foldlM (covOuter (fun i => fin (r i)) (fin s) n) (fun _ _ => 0) = .ok m ∧
      ∀ p q, p < n → q < n → min p q < k → m p q =
        fin (if p = q then r p * (1 - r p) / (s + 1) else -(r p * r q) / (s + 1)) := by
  intro k
  induction k with
  | zero => intro _; exact ⟨_, rfl, fun p q _ _ h => absurd h (by omega)⟩
  | succ k ih =>
    intro hk
    obtain ⟨m, h1, h2⟩ := ih (by omega)
    obtain ⟨m', h3, h4⟩ := inner_loop (r := r) hs k (List.range' (k + 1) (n - (k + 1)))
      (setAt m k k (fin (r k * (1 - r k) / (s + 1)))) (by simp)
    refine ⟨m', ?_, fun p q hp hq hpq => ?_⟩
    · rw [List.range_succ, List.foldlM_append, h1, ok_bind]
      simp only [List.foldlM_cons, List.foldlM_nil, covOuter, one_def, fin_sub, fin_mul, fin_add, fin_div _ hs, ok_bind, h3,
        pure_eq_ok]
    · rw [h4]
      simp only [List.mem_range'_1, setAt]
      by_cases c1 : p = k
      · subst c1
        by_cases c2 : q = p
        · subst c2; simp
        · by_cases c3 : p < q
          · rw [if_pos ⟨rfl, by omega, by omega⟩, if_neg (Ne.symm c2)]
            congr 2; ring
          · rw [if_neg (by omega), if_neg (by omega), if_neg (by omega)]
            exact h2 p q hp hq (by omega)
      · by_cases c2 : q = k
        · subst c2
          by_cases c3 : q < p
          · rw [if_neg (by omega), if_pos ⟨rfl, by omega, by omega⟩, if_neg c1]
            congr 2; ring
          · rw [if_neg (by omega), if_neg (by omega), if_neg (by omega)]
            exact h2 p q hp hq (by omega)
        · rw [if_neg (by omega), if_neg (by omega), if_neg (by omega)]
          exact h2 p q hp hq (by omega)

/-- C45 every entry of the matrix that `cov` builds (by filling the upper triangle and mirroring)
is the covariance of the two components. -/
theorem cov_spec (h : ∀ t ∈ a, 0 < t) (hne : a ≠ []) : ∃ m, cov (nums a) = .ok m ∧
    ∀ i j, i < a.length → j < a.length → m i j = fin (covFormula a i j) := by
  have hs := sum_pos h hne
  have hs1 : a.sum + 1 ≠ 0 := by linarith
  obtain ⟨m, h1, h2⟩ := outer_loop (r := fun i => a.getD i 0 / a.sum) hs1 a.length a.length le_rfl
  have e : (nums a).mapM (fun t => t /. mp.fsum (nums a)) =
      (.ok (nums (a.map (· / a.sum))) : M _) := by
    rw [nums, mp.fsum_fin]; exact ratios hs.ne'
  have hr : ∀ k ≤ a.length, (List.range k).foldlM (covOuter
      (fun i => (nums (a.map (· / a.sum))).getD i nan) (fin a.sum) a.length) (fun _ _ => 0) =
      (List.range k).foldlM (covOuter (fun i => fin (a.getD i 0 / a.sum)) (fin a.sum) a.length)
        (fun _ _ => 0) := by
    have hg : ∀ i, i < a.length → (nums (a.map (· / a.sum))).getD i nan =
        fin (a.getD i 0 / a.sum) := by
      intro i hi
      simp [nums, List.getD_eq_getElem?_getD, hi]
    have hin : ∀ i, i < a.length → ∀ (l : List ℕ), (∀ j ∈ l, j < a.length) → ∀ m,
        l.foldlM (covInner (fun i => (nums (a.map (· / a.sum))).getD i nan) (fin a.sum) i) m =
        l.foldlM (covInner (fun i => fin (a.getD i 0 / a.sum)) (fin a.sum) i) m := by
      intro i hi l
      induction l with
      | nil => intro _ m; rfl
      | cons j l ih =>
        intro hl m
        rw [List.foldlM_cons, List.foldlM_cons]
        have : covInner (fun i => (nums (a.map (· / a.sum))).getD i nan) (fin a.sum) i m j =
            covInner (fun i => fin (a.getD i 0 / a.sum)) (fin a.sum) i m j := by
          simp only [covInner, hg i hi, hg j (hl j (by simp))]
        rw [this]
        congr 1
        funext m'
        exact ih (fun j hj => hl j (by simp [hj])) m'
    intro k
    induction k with
    | zero => intro _; rfl
    | succ k ih =>
      intro hk
      rw [List.range_succ, List.foldlM_append, List.foldlM_append, ih (by omega)]
      congr 1
      funext m
      rw [List.foldlM_cons, List.foldlM_cons]
      simp only [List.foldlM_nil, covOuter, hg k (by omega)]
      congr 2
      funext v
      exact hin k (by omega) _ (fun j hj => by simp at hj; omega) _
  refine ⟨m, ?_, fun i j hi hj => ?_⟩
  · simp only [cov, validate_ok h, ok_bind, e, (by simp [nums] : (nums a).length = a.length)]
    rw [show mp.fsum (nums a) = fin a.sum from by rw [nums, mp.fsum_fin], hr _ le_rfl]
    exact h1
  · rw [h2 i j hi hj (by omega)]
    congr 1
    unfold covFormula
    have := hs.ne'
    split_ifs with c
    · subst c; field_simp
    · field_simp

theorem covFormula_symm (a : List ℝ) (i j : ℕ) : covFormula a i j = covFormula a j i := by
  unfold covFormula
  by_cases h : i = j
  · rw [h]
  · rw [if_neg h, if_neg (Ne.symm h)]; ring_nf

theorem sum_getD (a : List ℝ) (f : ℝ → ℝ) :
    ∑ i ∈ Finset.range a.length, f (a.getD i 0) = (a.map f).sum := by
  induction a with
  | nil => simp
  | cons t a ih =>
    rw [List.length_cons, Finset.sum_range_succ']
    simp only [List.getD_cons_succ, List.getD_cons_zero, ih, List.map_cons, List.sum_cons]
    ring

/-- A bilinear form with the matrix `diag(r) - r rᵀ`, divided by `c`. -/
theorem quad_form (a : List ℝ) (h : ∀ t ∈ a, 0 < t) (hne : a ≠ []) (x : ℕ → ℝ) (i : ℕ)
    (hi : i < a.length) :
    ∑ j ∈ Finset.range a.length, covFormula a i j * x j =
      (a.getD i 0 / a.sum) * (x i - ∑ j ∈ Finset.range a.length, a.getD j 0 / a.sum * x j) /
        (a.sum + 1) := by
  have hs := sum_pos h hne
  have h1 : a.sum + 1 ≠ 0 := by linarith
  have e : ∀ j ∈ Finset.range a.length, covFormula a i j * x j =
      (if i = j then a.getD i 0 / a.sum * x i / (a.sum + 1) else 0) -
        a.getD i 0 / a.sum / (a.sum + 1) * (a.getD j 0 / a.sum * x j) := by
    intro j _
    unfold covFormula
    have := hs.ne'
    split_ifs with c
    · subst c; field_simp
    · field_simp; ring
  rw [Finset.sum_congr rfl e, Finset.sum_sub_distrib, ← Finset.mul_sum, Finset.sum_ite_eq,
    if_pos (Finset.mem_range.2 hi)]
  field_simp

/-- C45 the covariance matrix is symmetric, its rows add up to 0, its diagonal entries are
`r (1 - r)/(a0 + 1)` with `r` the mean, and it is positive semidefinite. -/
theorem cov_properties (h : ∀ t ∈ a, 0 < t) (hne : a ≠ []) : ∃ m : ℕ → ℕ → Num, ∃ c : ℕ → ℕ → ℝ,
    cov (nums a) = .ok m ∧ (∀ i j, i < a.length → j < a.length → m i j = fin (c i j)) ∧
    (∀ i j, c i j = c j i) ∧
    (∀ i < a.length, ∑ j ∈ Finset.range a.length, c i j = 0) ∧
    (∀ i < a.length, c i i = (a.getD i 0 / a.sum) * (1 - a.getD i 0 / a.sum) / (a.sum + 1)) ∧
    (∀ x : ℕ → ℝ, 0 ≤ ∑ i ∈ Finset.range a.length, ∑ j ∈ Finset.range a.length,
      x i * c i j * x j) := by
  have hs := sum_pos h hne
  have h1 : 0 < a.sum + 1 := by linarith
  obtain ⟨m, h2, h3⟩ := cov_spec h hne
  have hr1 : ∑ j ∈ Finset.range a.length, a.getD j 0 / a.sum = 1 := by
    rw [sum_getD a (fun t => t / a.sum), sum_map_div, div_self hs.ne']
  refine ⟨m, covFormula a, h2, h3, covFormula_symm a, fun i hi => ?_, fun i _ => ?_, fun x => ?_⟩
  · have := quad_form a h hne (fun _ => 1) i hi
    simpa only [mul_one, hr1, sub_self, mul_zero, zero_div] using this
  · have := hs.ne'
    simp only [covFormula, if_true]; field_simp
  · set r : ℕ → ℝ := fun i => a.getD i 0 / a.sum with hr
    set μ := ∑ j ∈ Finset.range a.length, r j * x j with hμ
    have e : ∑ i ∈ Finset.range a.length, ∑ j ∈ Finset.range a.length, x i * covFormula a i j * x j
        = (∑ i ∈ Finset.range a.length, r i * (x i - μ) ^ 2) / (a.sum + 1) := by
      have : ∀ i ∈ Finset.range a.length, ∑ j ∈ Finset.range a.length, x i * covFormula a i j * x j
          = r i * (x i - μ) ^ 2 / (a.sum + 1) + μ * (r i * x i - μ * r i) / (a.sum + 1) := by
        intro i hi
        simp only [mul_assoc]
        rw [← Finset.mul_sum, quad_form a h hne x i (Finset.mem_range.1 hi)]
        rw [show ∑ j ∈ Finset.range a.length, a.getD j 0 / a.sum * x j = μ from rfl,
          show a.getD i 0 / a.sum = r i from rfl]
        field_simp
        ring
      rw [Finset.sum_congr rfl this, Finset.sum_add_distrib, ← Finset.sum_div, ← Finset.sum_div,
        ← Finset.mul_sum, Finset.sum_sub_distrib, ← Finset.mul_sum, hr1, ← hμ]
      ring
    rw [e]
    refine div_nonneg (Finset.sum_nonneg fun i hi => mul_nonneg ?_ (sq_nonneg _)) h1.le
    refine div_nonneg ?_ hs.le
    have : a.getD i 0 ∈ a := by
      have hi' := Finset.mem_range.1 hi
      simp [List.getD_eq_getElem?_getD, hi']
    exact (h _ this).le

example : ∃ m : List ℝ, mean (nums [1, 2, 3]) = .ok (nums m) ∧ m.sum = 1 := by
  obtain ⟨m, h1, -, h2, -⟩ := mean_spec (a := [1, 2, 3]) (by simp) (by simp)
  exact ⟨m, h1, h2⟩

/-- With `alpha = [1, 2, 3]` the covariance of the first two components is `-2/252`. -/
example : ∃ m, cov (nums [1, 2, 3]) = .ok m ∧ m 0 1 = fin (-2 / 252) := by
  obtain ⟨m, h1, h2⟩ := cov_spec (a := [1, 2, 3]) (by simp) (by simp)
  refine ⟨m, h1, ?_⟩
  rw [h2 0 1 (by simp) (by simp)]
  norm_num [covFormula]

/-! ### The density -/

open MeasureTheory Set

variable {n : ℕ} {α : Fin (n + 1) → ℝ} {eps : ℝ}

theorem nums_ofFn (u : Fin n → ℝ) : nums (List.ofFn u) = (List.finRange n).map fun i => fin (u i) := by
  rw [nums, List.ofFn_eq_map, List.map_map]; rfl

theorem fsum_ofFn (u : Fin n → ℝ) : mp.fsum ((List.finRange n).map fun i => fin (u i)) = fin (∑ i, u i) := by
  rw [← nums_ofFn, nums, mp.fsum_fin, List.sum_ofFn]

theorem validate_ofFn (ha : ∀ i, 0 < α i) : validateAlpha (nums (List.ofFn α)) = .ok (nums (List.ofFn α)) :=
  validate_ok (List.forall_mem_ofFn_iff.2 ha)

theorem logbeta_ofFn (ha : ∀ i, 0 < α i) : fun_.multivariateLogbeta (nums (List.ofFn α)) = .ok (fin (Real.log (dirD.D α))) := by
  have hs : 0 < ∑ i, α i := Finset.sum_pos (fun i _ => ha i) Finset.univ_nonempty
  have e : (nums (List.ofFn α)).mapM mp.loggamma = (.ok ((List.finRange (n + 1)).map fun i => fin (Real.log (Real.Gamma (α i)))) : M _) := by
    rw [nums_ofFn, List.mapM_map]
    exact py.mapM_fin _ fun i _ => mp.loggamma_pos (ha i)
  have e2 : mp.fsum (nums (List.ofFn α)) = fin (∑ i, α i) := by rw [nums_ofFn, fsum_ofFn]
  rw [fun_.multivariateLogbeta, e, e2, mp.loggamma_pos hs]
  simp only [ok_bind, pure_eq_ok, neg_fin]
  rw [← nums_ofFn, nums, show [fin (-Real.log (Real.Gamma (∑ i, α i)))] = [-Real.log (Real.Gamma (∑ i, α i))].map fin from rfl, ← List.map_append,
    mp.fsum_fin, List.sum_append, List.sum_ofFn, dirD.log_D ha]
  simp [sub_eq_add_neg]

/-- C65 `multivariate_logbeta` is the logarithm of the multivariate beta function. -/
theorem logbeta_spec (ha : ∀ i, 0 < α i) : fun_.multivariateLogbeta (nums (List.ofFn α)) =
    .ok (fin (Real.log ((∏ i, Real.Gamma (α i)) / Real.Gamma (∑ i, α i)))) := logbeta_ofFn ha

theorem point_eq (y : Fin n → ℝ) : simplexPoint y = List.ofFn (dirD.ext y) := by
  rw [simplexPoint, dirD.ext, List.ofFn_succ']; simp

theorem almosteq_one (he : 0 ≤ eps) : mp.almosteqD eps (fin 1) 1 := by
  rw [one_def]; left; simpa using he

theorem validateX_ok (he : 0 ≤ eps) {x : Fin (n + 1) → ℝ} (h : ∀ i, 0 ≤ x i) (hs : ∑ i, x i = 1) :
    validateX eps (nums (List.ofFn x)) = .ok (nums (List.ofFn x)) := by
  have h1 : ¬ ∃ t ∈ nums (List.ofFn x), t < 0 := by
    rw [nums_ofFn]
    rintro ⟨t, ht, h2⟩
    obtain ⟨i, -, rfl⟩ := List.mem_map.1 ht
    exact absurd (h i) (not_le.2 (by simpa using h2))
  have h2 : mp.fsum (nums (List.ofFn x)) = fin 1 := by rw [nums_ofFn, fsum_ofFn, hs]
  simp only [validateX, if_neg h1, h2, not_true, almosteq_one he, if_false]

theorem logpdf_eval (he : 0 ≤ eps) (ha : ∀ i, 0 < α i) {y : Fin n → ℝ} (hy : y ∈ dirD.T n) :
    logpdf eps (nums (simplexPoint y)) (nums (List.ofFn α)) = .ok (fin (Real.log (dirD.f α y))) := by
  have hv := validateX_ok he (x := dirD.ext y) (fun i => (dirD.ext_pos hy i).le) (dirD.sum_ext y)
  have hl : ¬ ((nums (List.ofFn α)).length ≠ (nums (List.ofFn (dirD.ext y))).length) := by simp [nums]
  have e : ((nums (List.ofFn (dirD.ext y))).zip (nums (List.ofFn α))).mapM (fun (t, a) => fun_.xlogy (a - 1) t) =
      (.ok ((List.finRange (n + 1)).map fun i => fin ((α i - 1) * Real.log (dirD.ext y i))) : M _) := by
    rw [nums_ofFn, nums_ofFn, List.zip_map', List.mapM_map]
    refine py.mapM_fin _ fun i _ => ?_
    simp only [Function.comp, one_def, fin_sub]
    exact fun_.xlogy_eval (dirD.ext_pos hy i)
  rw [logpdf, validateXAlpha, validate_ofFn ha, ok_bind, point_eq, hv, ok_bind, if_neg hl]
  simp only [pure_eq_ok, ok_bind, logbeta_ofFn ha]
  rw [e]
  simp only [ok_bind, neg_fin]
  rw [← nums_ofFn, nums, show [fin (-Real.log (dirD.D α))] = [-Real.log (dirD.D α)].map fin from rfl, ← List.map_append,
    mp.fsum_fin, List.sum_append, List.sum_ofFn, dirD.log_f ha hy]
  simp [sub_eq_add_neg]

theorem pdf_eval (he : 0 ≤ eps) (ha : ∀ i, 0 < α i) {y : Fin n → ℝ} (hy : y ∈ dirD.T n) :
    pdf eps (nums (simplexPoint y)) (nums (List.ofFn α)) = .ok (fin (dirD.f α y)) := by
  rw [pdf, logpdf_eval he ha hy, ok_bind, mp.exp_fin, Real.exp_log (dirD.f_pos ha hy)]; rfl

/-- C65: `pdf` is a probability density on the simplex, of every dimension -/
theorem isPdf (he : 0 ≤ eps) (ha : ∀ i, 0 < α i) : IsSimplexPdf n (pdf eps · (nums (List.ofFn α))) :=
  ⟨dirD.f α, fun _ hy => pdf_eval he ha hy, fun _ hy => (dirD.f_pos ha hy).le, (dirD.int_one ha).1, (dirD.int_one ha).2⟩

/-- C65: `logpdf` is its logarithm -/
theorem isLog (he : 0 ≤ eps) (ha : ∀ i, 0 < α i) (y : Fin n → ℝ) (hy : y ∈ simplex n) : ∃ r : ℝ, 0 < r ∧
    pdf eps (nums (simplexPoint y)) (nums (List.ofFn α)) = .ok (fin r) ∧
    logpdf eps (nums (simplexPoint y)) (nums (List.ofFn α)) = .ok (fin (Real.log r)) :=
  ⟨_, dirD.f_pos ha hy, pdf_eval he ha hy, logpdf_eval he ha hy⟩

/-- C37, C45, C65: `mean` is the mean vector of the density -/
theorem isMean (he : 0 ≤ eps) (ha : ∀ i, 0 < α i) : ∃ m : Fin (n + 1) → ℝ, mean (nums (List.ofFn α)) = .ok (nums (List.ofFn m)) ∧
    ∀ i, IsSimplexExpect n (pdf eps · (nums (List.ofFn α))) (fun x => x i) (m i) := by
  obtain ⟨l, h1, h2, -⟩ := mean_spec (a := List.ofFn α) (List.forall_mem_ofFn_iff.2 ha) (by simp)
  refine ⟨fun i => α i / ∑ i, α i, ?_, fun i => ?_⟩
  · rw [h1, h2, List.sum_ofFn, List.ofFn_eq_map, List.map_map, List.ofFn_eq_map]; rfl
  · have h := dirD.int_f ha (g := fun y => dirD.ext y i) (dirD.int_ext ha i)
    exact ⟨dirD.f α, fun _ hy => pdf_eval he ha hy, h.1, h.2⟩

/-- C37, C45, C65: `cov` is the covariance matrix of the density: `m` is the mean -/
theorem isCov (he : 0 ≤ eps) (ha : ∀ i, 0 < α i) : ∃ (m : Fin (n + 1) → ℝ) (c : Fin (n + 1) → Fin (n + 1) → ℝ) (C : ℕ → ℕ → Num),
    mean (nums (List.ofFn α)) = .ok (nums (List.ofFn m)) ∧ cov (nums (List.ofFn α)) = .ok C ∧ (∀ i j : Fin (n + 1), C i j = fin (c i j)) ∧
    ∀ i j, IsSimplexExpect n (pdf eps · (nums (List.ofFn α))) (fun x => (x i - m i) * (x j - m j)) (c i j) := by
  have hs : 0 < ∑ i, α i := Finset.sum_pos (fun i _ => ha i) Finset.univ_nonempty
  obtain ⟨l, h1, h2, -⟩ := mean_spec (a := List.ofFn α) (List.forall_mem_ofFn_iff.2 ha) (by simp)
  obtain ⟨C, h3, h4⟩ := cov_spec (a := List.ofFn α) (List.forall_mem_ofFn_iff.2 ha) (by simp)
  have hg : ∀ i : Fin (n + 1), (List.ofFn α).getD i 0 = α i := fun i => by
    rw [List.getD_eq_getElem?_getD, List.getElem?_ofFn, dif_pos i.2]; rfl
  refine ⟨fun i => α i / ∑ i, α i, fun i j => covFormula (List.ofFn α) i j, C, ?_, h3, fun i j => h4 i j (by rw [List.length_ofFn]; exact i.2) (by rw [List.length_ofFn]; exact j.2), fun i j => ?_⟩
  · rw [h1, h2, List.sum_ofFn, List.ofFn_eq_map, List.map_map, List.ofFn_eq_map]; rfl
  · set S := ∑ i, α i with hS
    have k0 := dirD.int_one ha
    have k1 := dirD.int_f ha (g := fun y => dirD.ext y i) (dirD.int_ext ha i)
    have k2 := dirD.int_f ha (g := fun y => dirD.ext y j) (dirD.int_ext ha j)
    have k3 := dirD.int_f ha (g := fun y => dirD.ext y i * dirD.ext y j) (dirD.int_ext_mul ha i j)
    have e : (fun y : Fin n → ℝ => (dirD.ext y i - α i / S) * (dirD.ext y j - α j / S) * dirD.f α y) = fun y =>
        ((dirD.ext y i * dirD.ext y j * dirD.f α y - α j / S * (dirD.ext y i * dirD.f α y)) - α i / S * (dirD.ext y j * dirD.f α y)) +
          α i / S * (α j / S) * dirD.f α y := by
      funext y; ring
    have i1 : IntegrableOn (fun y : Fin n → ℝ => dirD.ext y i * dirD.ext y j * dirD.f α y - α j / S * (dirD.ext y i * dirD.f α y)) (dirD.T n) :=
      k3.1.sub (k1.1.const_mul (α j / S))
    have i2 : IntegrableOn (fun y : Fin n → ℝ => dirD.ext y i * dirD.ext y j * dirD.f α y - α j / S * (dirD.ext y i * dirD.f α y) -
        α i / S * (dirD.ext y j * dirD.f α y)) (dirD.T n) := i1.sub (k2.1.const_mul (α i / S))
    have i3 := k0.1.const_mul (α i / S * (α j / S))
    refine ⟨dirD.f α, fun _ hy => pdf_eval he ha hy, ?_, ?_⟩
    · change IntegrableOn (fun y : Fin n → ℝ => (dirD.ext y i - α i / S) * (dirD.ext y j - α j / S) * dirD.f α y) (dirD.T n)
      rw [e]; exact i2.add i3
    · change ∫ y in dirD.T n, (dirD.ext y i - α i / S) * (dirD.ext y j - α j / S) * dirD.f α y = _
      rw [e, integral_add i2 i3, integral_sub i1 (k2.1.const_mul _), integral_sub k3.1 (k1.1.const_mul _), integral_const_mul, integral_const_mul,
        integral_const_mul, k0.2, k1.2, k2.2, k3.2]
      simp only [covFormula, hg, List.sum_ofFn, ← hS, Fin.val_inj]
      split_ifs with c
      · subst c; field_simp; ring
      · field_simp; ring

/-- C65: `entropy` is the differential entropy of the density -/
theorem isEntropy (he : 0 ≤ eps) (ha : ∀ i, 0 < α i) : IsSimplexEntropy n (pdf eps · (nums (List.ofFn α))) (entropy (nums (List.ofFn α))) := by
  have hs : 0 < ∑ i, α i := Finset.sum_pos (fun i _ => ha i) Finset.univ_nonempty
  have k := dirD.int_ent ha
  refine ⟨dirD.f α, _, fun _ hy => pdf_eval he ha hy, ?_, IntegrableOn.congr_fun k.1 (fun y _ => mul_comm _ _) dirD.measurableSet_T, rfl⟩
  have e : (nums (List.ofFn α)).mapM (fun a => do return -(a - 1) * (← mp.digamma a)) =
      (.ok ((List.finRange (n + 1)).map fun i => fin (-(α i - 1) * psi (α i))) : M _) := by
    rw [nums_ofFn, List.mapM_map]
    refine py.mapM_fin _ fun i _ => ?_
    simp only [Function.comp, one_def, fin_sub, neg_fin, mp.digamma_pos (ha i), ok_bind, fin_mul, pure_eq_ok]
  have e2 : mp.fsum (nums (List.ofFn α)) = fin (∑ i, α i) := by rw [nums_ofFn, fsum_ofFn]
  have e3 : fin ((nums (List.ofFn α)).length : ℝ) = fin ((n + 1 : ℕ) : ℝ) := by simp [nums]
  rw [entropy, validate_ofFn ha]
  simp only [ok_bind, e2, logbeta_ofFn ha, mp.digamma_pos hs, e3, fin_sub, fin_mul]
  rw [e]
  simp only [ok_bind, pure_eq_ok]
  rw [← nums_ofFn, nums, show ∀ u v : ℝ, [fin u, fin v] = [u, v].map fin from fun _ _ => rfl, ← List.map_append, mp.fsum_fin, List.sum_append, List.sum_ofFn]
  congr 2
  rw [show (fun y => dirD.f α y * Real.log (dirD.f α y)) = fun y => Real.log (dirD.f α y) * dirD.f α y from funext fun y => mul_comm _ _,
    show simplex n = dirD.T n from rfl, k.2]
  simp only [List.sum_cons, List.sum_nil, add_zero, mul_sub, Finset.sum_sub_distrib, ← Finset.sum_mul, Finset.sum_const, Finset.card_univ,
    Fintype.card_fin, nsmul_eq_mul, neg_mul, Finset.sum_neg_distrib, mul_one]
  ring

/-- C12, C65: with two components it is the beta distribution -/
theorem pdf_two (he : 0 ≤ eps) {a b x : ℝ} (ha : 0 < a) (hb : 0 < b) (h0 : 0 < x) (h1 : x < 1) :
    pdf eps [fin x, fin (1 - x)] [fin a, fin b] = beta.pdf (fin x) (fin a) (fin b) := by
  have h := pdf_eval (n := 1) (α := ![a, b]) (y := ![x]) he (by simp [Fin.forall_fin_two, ha, hb]) ⟨by simpa using h0, by simpa using h1⟩
  have e : nums (simplexPoint ![x]) = [fin x, fin (1 - x)] := by simp [simplexPoint, nums]
  have e2 : nums (List.ofFn ![a, b]) = [fin a, fin b] := by simp [nums]
  rw [e, e2] at h
  rw [h, beta.pdf_eval ha hb (by simp [beta.E, h0.ne', h1.ne]), betaD.f_mid h0.le h1.le]
  simp [dirD.f, dirD.W, dirD.D, dirD.ext, Fin.prod_univ_two, Fin.sum_univ_two, betaD.g, betaD.w, betaFn]

/-- C07, C65: arguments that are not points of the simplex are rejected: negative components, sums off by more than the tolerance,
and a number of components other than that of the parameters. -/
theorem rejects_x (he : 0 ≤ eps) (a : List ℝ) (h : ∀ t ∈ a, 0 < t) (x : List ℝ)
    (hx : (∃ t ∈ x, t < 0) ∨ (eps < |x.sum - 1| ∧ eps * max |x.sum| 1 < |x.sum - 1|) ∨ a.length ≠ x.length) :
    logpdf eps (nums x) (nums a) = .error .valueError ∧ pdf eps (nums x) (nums a) = .error .valueError := by
  suffices logpdf eps (nums x) (nums a) = .error .valueError from ⟨this, by rw [pdf, this]; rfl⟩
  have hiff : (∃ t ∈ nums x, t < 0) ↔ ∃ t ∈ x, t < 0 := by simp [nums]
  rw [logpdf, validateXAlpha, validate_ok h, ok_bind, validateX]
  by_cases c1 : ∃ t ∈ x, t < 0
  · rw [if_pos (hiff.2 c1)]; rfl
  · rw [if_neg (fun h => c1 (hiff.1 h))]
    have e : mp.fsum (nums x) = fin x.sum := by rw [nums, mp.fsum_fin]
    simp only [e]
    by_cases c2 : mp.almosteqD eps (fin x.sum) 1
    · rw [if_neg (not_not.2 c2)]
      have c3 : a.length ≠ x.length := by
        rcases hx with hx | hx | hx
        · exact absurd hx c1
        · exfalso
          obtain ⟨k1, k2⟩ := hx
          rw [one_def] at c2
          rcases c2 with c2 | c2
          · linarith
          · rw [abs_one] at c2
            split_ifs at c2 with c4
            · rw [div_one] at c2; linarith
            · rw [not_lt] at c4
              rw [div_le_iff₀ (by linarith), ] at c2
              rw [max_eq_left c4] at k2
              linarith
        · exact hx
      simp only [ok_bind]
      rw [if_pos (by simpa [nums] using c3)]; rfl
    · rw [if_pos c2]; rfl

/-- C65 (finding): where one component with parameter above 1 and one with parameter below 1 vanish, the value is `-inf + inf`. -/
theorem boundary_nan (he : 0 ≤ eps) : pdf eps (nums [0, 0, 1]) (nums [2, 1 / 2, 1]) = .ok nan := by
  have h := logbeta_ofFn (α := ![2, 1 / 2, 1]) (by simp [Fin.forall_fin_succ])
  have e2 : List.ofFn ![(2:ℝ), 1 / 2, 1] = [2, 1 / 2, 1] := by simp
  have hv := validateX_ok he (x := ![0, 0, 1]) (by simp [Fin.forall_fin_succ]) (by simp [Fin.sum_univ_succ])
  have e3 : List.ofFn ![(0:ℝ), 0, 1] = [0, 0, 1] := by simp
  have hv2 := validate_ofFn (α := ![2, 1 / 2, 1]) (by simp [Fin.forall_fin_succ])
  rw [e2] at h hv2
  rw [e3] at hv
  rw [pdf, logpdf, validateXAlpha, hv2, ok_bind, hv, ok_bind, if_neg (by simp [nums])]
  simp only [pure_eq_ok, ok_bind, h]
  have x1 : fun_.xlogy (fin 2 - 1) (fin 0) = .ok ninf := by
    simp [fun_.xlogy, mp.isnan, one_def, zero_def, mp.log, scaleInf]; norm_num
  have x2 : fun_.xlogy (fin (1 / 2) - 1) (fin 0) = .ok pinf := by
    simp [fun_.xlogy, mp.isnan, one_def, zero_def, mp.log, scaleInf]; norm_num
  have x3 : fun_.xlogy (fin 1 - 1) (fin 1) = .ok (fin 0) := by
    simp [fun_.xlogy, mp.isnan, one_def, zero_def]
  simp only [nums, List.map_cons, List.map_nil, List.zip_cons_cons, List.zip_nil_right, List.mapM_cons, List.mapM_nil, x1, x2, x3, ok_bind, pure_eq_ok]
  simp [mp.fsum_cons, mp.fsum_nil, mp.exp, zero_def]

/-- Non-vacuity -/
example : IsSimplexPdf 2 (pdf 0 · (nums (List.ofFn ![1, 2, 1/2]))) := isPdf le_rfl (by simp [Fin.forall_fin_succ])

end Mpsci.dirichlet
