import Verif.Model.Stats.Goftests
import Verif.Spec.Stats

/-! Properties of the F statistic of `stats.anova_oneway`. -/

namespace Mpsci.stats

open Classical Num Spec

variable {gs : List (List ℝ)}

theorem sumSq_decomp {g : List ℝ} (hg : g ≠ []) (c : ℝ) :
    sumSq c g = sumSq (average g) g + g.length * (average g - c) ^ 2 := by
  have hl : (g.length : ℝ) ≠ 0 := by simpa using hg
  have key : ∀ (l : List ℝ) (m : ℝ), sumSq c l = sumSq m l + 2 * (m - c) * (l.sum - l.length * m) +
      l.length * (m - c) ^ 2 := by
    intro l m
    induction l with
    | nil => simp [sumSq]
    | cons a l ih =>
      simp only [sumSq, List.map_cons, List.sum_cons, List.length_cons, Nat.cast_add,
        Nat.cast_one] at ih ⊢
      rw [ih]; ring
  rw [key g (average g), average, mul_div_cancel₀ _ hl, sub_self]; ring

theorem sumSq_nonneg (c : ℝ) (g : List ℝ) : 0 ≤ sumSq c g :=
  List.sum_nonneg (by intro v hv; obtain ⟨t, _, rfl⟩ := List.mem_map.1 hv; positivity)

theorem within_nonneg : 0 ≤ within gs :=
  List.sum_nonneg (by
    intro v hv; obtain ⟨t, _, rfl⟩ := List.mem_map.1 hv; exact sumSq_nonneg _ _)

theorem between_nonneg : 0 ≤ between gs :=
  List.sum_nonneg (by intro v hv; obtain ⟨t, _, rfl⟩ := List.mem_map.1 hv; positivity)

theorem total_decomp (hne : ∀ g ∈ gs, g ≠ []) :
    (gs.map fun g => sumSq (average gs.flatten) g).sum = within gs + between gs := by
  rw [within, between, ← List.sum_map_add]
  congr 1
  exact List.map_congr_left fun g hg => sumSq_decomp (hne g hg) _

/-- With every group a singleton there is no variation within groups. -/
theorem length_ne (hne : ∀ g ∈ gs, g ≠ []) (hw : within gs ≠ 0) :
    (gs.length : ℝ) < (gs.flatten.length : ℝ) := by
  have h1 : gs.length ≤ (gs.map List.length).sum ∧
      (gs.length = (gs.map List.length).sum → within gs = 0) := by
    clear hw
    induction gs with
    | nil => simp [within]
    | cons g l ih =>
      have hg := List.length_pos_iff.2 (hne g (by simp))
      obtain ⟨i1, i2⟩ := ih fun g hg => hne g (List.mem_cons_of_mem _ hg)
      simp only [List.length_cons, List.map_cons, List.sum_cons]
      refine ⟨by omega, ?_⟩
      intro h
      have e1 : g.length = 1 := by omega
      have e2 := i2 (by omega)
      obtain ⟨a, rfl⟩ := List.length_eq_one_iff.1 e1
      simp only [within, List.map_cons, List.sum_cons] at e2 ⊢
      rw [e2]; simp [sumSq, average]
  rw [List.length_flatten]
  have : gs.length ≠ (gs.map List.length).sum := fun h => hw (h1.2 h)
  exact_mod_cast lt_of_le_of_ne h1.1 this

theorem anova_eval (hne : ∀ g ∈ gs, g ≠ []) (hk : 2 ≤ gs.length) (hw : within gs ≠ 0) :
    anovaF (gs.map nums) = .ok (fin ((between gs / (gs.length - 1)) /
      (within gs / (gs.flatten.length - gs.length)))) := by
  have hlt := length_ne hne hw
  have hk' : (2:ℝ) ≤ gs.length := by exact_mod_cast hk
  have hn : ((gs.flatten.length : ℕ) : ℝ) ≠ 0 := by linarith
  have e1 : (((gs.map nums).map List.length).sum : ℝ) = gs.flatten.length := by
    rw [List.length_flatten, List.map_map]; congr 3; funext g; simp [nums]
  have e2 : mp.fsum ((gs.map nums).map mp.fsum) = fin gs.flatten.sum := by
    have : (gs.map nums).map mp.fsum = gs.map fun g => fin g.sum := by
      rw [List.map_map]; congr 1; funext g; simp [nums, mp.fsum_fin]
    rw [this, mp.fsum_map_fin, List.sum_flatten]
  have e3 : mp.fsum ((gs.map nums).map fun group => mp.fsum (group.map fun g =>
      (g - fin (average gs.flatten)) * (g - fin (average gs.flatten)))) =
      fin (within gs + between gs) := by
    rw [← total_decomp hne, ← mp.fsum_map_fin, List.map_map]
    congr 2
    funext g
    simp only [Function.comp_def, nums, List.map_map, fin_sub, fin_mul, mp.fsum_map_fin, sumSq,
      pow_two]
  have e4 : (gs.map nums).mapM (fun group => do
      let m ← mp.fsum group /. fin group.length
      return fin group.length *
        ((m - fin (average gs.flatten)) * (m - fin (average gs.flatten)))) =
      .ok (gs.map fun g => fin ((g.length : ℝ) * (average g - average gs.flatten) ^ 2)) := by
    generalize average gs.flatten = c
    clear hk hw hlt hk' hn e1 e2 e3
    induction gs with
    | nil => simp
    | cons g l ih =>
      have hg : (g.length : ℝ) ≠ 0 := by simpa using hne g (by simp)
      have := ih fun g hg => hne g (List.mem_cons_of_mem _ hg)
      simp only [List.map_cons, List.mapM_cons]
      rw [this]
      simp [nums, mp.fsum_fin, fin_div _ hg, average, pow_two]
  have n1 : (gs.length : ℝ) - 1 ≠ 0 := by linarith
  have n2 : (gs.flatten.length : ℝ) - gs.length ≠ 0 := by linarith
  have n3 : within gs / ((gs.flatten.length : ℝ) - gs.length) ≠ 0 := div_ne_zero hw n2
  simp only [anovaF, e1, e2, fin_div _ hn, ok_bind]
  rw [show gs.flatten.sum / (gs.flatten.length : ℝ) = average gs.flatten from rfl, e3, e4, ok_bind,
    mp.fsum_map_fin]
  rw [← between]
  simp only [List.length_map, one_def, fin_sub, fin_div _ n1, ok_bind, add_sub_cancel_right,
    fin_div _ n2, fin_div _ n3]

/-- C26: the F statistic is `(between/(k-1))/(within/(n-k))` and it is nonnegative; `k - 1` and
`n - k` are positive. -/
theorem anova_value (hne : ∀ g ∈ gs, g ≠ []) (hk : 2 ≤ gs.length) (hw : within gs ≠ 0) :
    ∃ F, anovaF (gs.map nums) = .ok (fin F) ∧ F = (between gs / (gs.length - 1)) /
      (within gs / (gs.flatten.length - gs.length)) ∧ 0 ≤ F ∧
      (0:ℝ) < gs.length - 1 ∧ (0:ℝ) < gs.flatten.length - gs.length := by
  have hlt := length_ne hne hw
  have hk' : (2:ℝ) ≤ gs.length := by exact_mod_cast hk
  exact ⟨_, anova_eval hne hk hw, rfl,
    div_nonneg (div_nonneg between_nonneg (by linarith)) (div_nonneg within_nonneg (by linarith)),
    by linarith, by linarith⟩

theorem average_affine {g : List ℝ} (hg : g ≠ []) (a b : ℝ) :
    average (g.map fun t => a * t + b) = a * average g + b := by
  have hl : (g.length : ℝ) ≠ 0 := by simpa using hg
  have : (g.map fun t => a * t + b).sum = a * g.sum + g.length * b := by
    rw [List.sum_map_add, List.sum_map_mul_left]; simp
  rw [average, average, this, List.length_map]
  field_simp

theorem within_affine (hne : ∀ g ∈ gs, g ≠ []) (a b : ℝ) :
    within (gs.map fun g => g.map fun t => a * t + b) = a ^ 2 * within gs := by
  rw [within, within, ← List.sum_map_mul_left, List.map_map]
  congr 1
  refine List.map_congr_left fun g hg => ?_
  simp only [Function.comp_def, average_affine (hne g hg), sumSq, List.map_map]
  rw [← List.sum_map_mul_left]
  congr 2
  funext t; ring

theorem between_affine (hne : ∀ g ∈ gs, g ≠ []) (hgs : gs ≠ []) (a b : ℝ) :
    between (gs.map fun g => g.map fun t => a * t + b) = a ^ 2 * between gs := by
  have hf : gs.flatten ≠ [] := by
    obtain ⟨g, l, rfl⟩ := List.exists_cons_of_ne_nil hgs
    have := hne g (by simp)
    simp [this]
  have e : (gs.map fun g => g.map fun t => a * t + b).flatten =
      gs.flatten.map fun t => a * t + b := by rw [List.map_flatten]
  rw [between, between, e, average_affine hf, ← List.sum_map_mul_left, List.map_map]
  congr 1
  refine List.map_congr_left fun g hg => ?_
  simp only [Function.comp_def, average_affine (hne g hg), List.length_map]
  ring

/-- C26: shifting all data by `b` and multiplying by a nonzero constant `a` leaves F unchanged. -/
theorem anova_affine (hne : ∀ g ∈ gs, g ≠ []) (hk : 2 ≤ gs.length) (hw : within gs ≠ 0) {a : ℝ}
    (ha : a ≠ 0) (b : ℝ) :
    anovaF ((gs.map fun g => g.map fun t => a * t + b).map nums) = anovaF (gs.map nums) := by
  have hgs : gs ≠ [] := by rintro rfl; simp at hk
  have h2 : a ^ 2 ≠ 0 := pow_ne_zero 2 ha
  rw [anova_eval hne hk hw, anova_eval, within_affine hne, between_affine hne hgs]
  · have e : (gs.map fun g => g.map fun t => a * t + b).flatten.length = gs.flatten.length := by
      rw [← List.map_flatten, List.length_map]
    rw [e, List.length_map]
    congr 2
    rw [mul_div_assoc (a ^ 2) (between gs), mul_div_assoc (a ^ 2) (within gs),
      mul_div_mul_left _ _ h2]
  · intro g hg
    obtain ⟨g', hg', rfl⟩ := List.mem_map.1 hg
    simpa using hne g' hg'
  · simpa using hk
  · rw [within_affine hne]; exact mul_ne_zero h2 hw

theorem average_perm {g h : List ℝ} (p : g.Perm h) : average g = average h := by
  rw [average, average, p.sum_eq, p.length_eq]

theorem sumSq_perm {g h : List ℝ} (p : g.Perm h) (c : ℝ) : sumSq c g = sumSq c h :=
  (p.map _).sum_eq

/-- C26: reordering the groups, or the values inside the groups, leaves F unchanged. -/
theorem anova_perm {hs : List (List ℝ)} (hne : ∀ g ∈ gs, g ≠ []) (hk : 2 ≤ gs.length)
    (hw : within gs ≠ 0) (h : gs.Perm hs ∨ List.Forall₂ List.Perm gs hs) :
    anovaF (hs.map nums) = anovaF (gs.map nums) := by
  rcases h with p | p
  · have ew : within hs = within gs := (p.symm.map _).sum_eq
    have ef : average hs.flatten = average gs.flatten := average_perm p.symm.flatten
    have eb : between hs = between gs := by
      rw [between, between, ef]; exact (p.symm.map _).sum_eq
    rw [anova_eval hne hk hw, anova_eval, ew, eb, p.length_eq, p.flatten.length_eq]
    · intro g hg; exact hne g (p.mem_iff.2 hg)
    · rw [← p.length_eq]; exact hk
    · rw [ew]; exact hw
  · have pf : gs.flatten.Perm hs.flatten := by
      clear hne hk hw
      induction p with
      | nil => simp
      | cons h _ ih => simpa using h.append ih
    have hl : gs.length = hs.length := p.length_eq
    have ef : average gs.flatten = average hs.flatten := average_perm pf
    have ew : within gs = within hs := by
      clear hne hk hw pf hl ef
      induction p with
      | nil => rfl
      | cons h _ ih =>
        simp only [within, List.map_cons, List.sum_cons] at ih ⊢
        rw [ih, average_perm h, sumSq_perm h]
    have eb : between gs = between hs := by
      rw [between, between, ef]
      generalize average hs.flatten = c
      clear hne hk hw pf hl ef ew
      induction p with
      | nil => rfl
      | cons h _ ih =>
        simp only [List.map_cons, List.sum_cons] at ih ⊢
        rw [ih, average_perm h, h.length_eq]
    have hne' : ∀ g ∈ hs, g ≠ [] := by
      clear hk hw pf hl ef ew eb
      induction p with
      | nil => simp
      | cons h _ ih =>
        intro g hg
        rcases List.mem_cons.1 hg with rfl | hg
        · intro e; subst e
          exact hne _ (by simp) h.eq_nil
        · exact ih (fun g hg => hne g (List.mem_cons_of_mem _ hg)) g hg
    rw [anova_eval hne hk hw, anova_eval hne' (hl ▸ hk) (ew ▸ hw), ew, eb, hl, pf.length_eq]

/-- C26: error branches: no groups, one group, or an empty group next to a nonempty one raise
ZeroDivisionError. -/
theorem anova_errors (g : List ℝ) (hg : g ≠ []) :
    anovaF [] = .error .zeroDivision ∧ anovaF [nums g] = .error .zeroDivision ∧
    anovaF [nums g, []] = .error .zeroDivision := by
  have hl : (g.length : ℝ) ≠ 0 := by simpa using hg
  have hl' : (nums g).length = g.length := by simp [nums]
  have hs : mp.fsum (nums g) = fin g.sum := mp.fsum_fin g
  refine ⟨by simp [anovaF], ?_, ?_⟩
  · simp only [anovaF, List.map_cons, List.map_nil, List.sum_cons, List.sum_nil, hl', hs,
      mp.fsum_cons, mp.fsum_nil, fin_add, add_zero, fin_div _ hl, ok_bind, List.mapM_cons,
      List.mapM_nil, pure_eq_ok, List.length_cons, List.length_nil]
    simp
  · simp only [anovaF, List.map_cons, List.map_nil, List.sum_cons, List.sum_nil, hl', hs,
      mp.fsum_cons, mp.fsum_nil, fin_add, add_zero, List.length_nil, fin_div _ hl, ok_bind,
      List.mapM_cons]
    simp

/-- Non-vacuity: groups `[1, 2], [3, 6]`: F = 18/5. -/
example : within [[1, 2], [3, 6]] ≠ 0 ∧
    anovaF ([[1, 2], [3, 6]].map nums) = .ok (fin (18 / 5)) := by
  have hw : within [[1, 2], [3, 6]] = 5 := by norm_num [within, sumSq, average]
  have hb : between [[1, 2], [3, 6]] = 9 := by norm_num [between, average]
  refine ⟨by rw [hw]; norm_num, ?_⟩
  rw [anova_eval (by simp) (by simp) (by rw [hw]; norm_num), hw, hb]
  norm_num

end Mpsci.stats
