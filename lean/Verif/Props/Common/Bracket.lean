import Verif.Lemmas.Common.Bracket

/-!
# C28: the bracket searches return brackets
-/

namespace Mpsci.common

open Classical Num Spec

variable {func : Num → M Num} {g : ℝ → ℝ} {a b : Num} {p pa pb x : ℝ}

/-- C28 `_find_bracket` with an increasing function on any of the four kinds of interval: the
call terminates and returns points of the interval on both sides of the solution `x` of
`g x = p`; on a bounded interval the bracket is narrowed by the factor `2 ** nbisect`. -/
theorem findBracket_mono (hab : a < b)
    (hf : ∀ t ∈ dom a b, func (fin t) = .ok (fin (g t)))
    (ha : func a = .ok (fin pa)) (hb : func b = .ok (fin pb))
    (hg : StrictMonoOn g (dom a b)) (hpa : ∀ t ∈ dom a b, pa ≤ g t)
    (hpb : ∀ t ∈ dom a b, g t ≤ pb) (hx : x ∈ dom a b) (hp : g x = p) (nb : Option ℕ) :
    ∃ lo hi N, lo ∈ dom a b ∧ hi ∈ dom a b ∧ lo ≤ x ∧ x ≤ hi ∧
      (∀ u v : ℝ, a = fin u → b = fin v → hi - lo ≤ (v - u) / 2 ^ (nb.getD 8)) ∧
      ∀ fuel ≥ N, findBracket fuel func (fin p) a b nb = .ok (fin lo, fin hi) := by
  obtain ⟨y, hy⟩ : ∃ y ∈ dom a b, y ≠ x := by
    cases a <;> cases b <;> simp [dom] at hab hx ⊢
    · rename_i u v
      rcases eq_or_ne x u with rfl | h
      · exact ⟨v, ⟨hab.le, le_rfl⟩, hab.ne'⟩
      · exact ⟨u, ⟨le_rfl, hab.le⟩, h.symm⟩
    · exact ⟨x + 1, by linarith, by linarith⟩
    · exact ⟨x - 1, by linarith, by linarith⟩
    · exact ⟨x + 1, by linarith⟩
  have hlt : pa < pb := by
    rcases lt_or_gt_of_ne hy.2 with h | h
    · exact (hpa y hy.1).trans_lt ((hg hy.1 hx h).trans_le (hpb x hx))
    · exact (hpa x hx).trans_lt ((hg hx hy.1 h).trans_le (hpb y hy.1))
  refine findBracket_spec hab ha hb ⟨fun t ht => ⟨_, hf t ht, ?_, ?_⟩⟩ hx ?_ ?_ nb
  · rw [fin_sub, fin_sub, sign_eq_pos (sub_pos.2 hlt), sub_pos, ← hp, hg.lt_iff_lt ht hx]
  · rw [fin_eq, ← hp]
    exact ⟨fun h => hg.injOn ht hx h, fun h => by rw [h]⟩
  · rintro rfl
    simp only [fin_eq, ← hp]
    have h1 : x - 1 ∈ dom ninf b := by
      refine ⟨trivial, ?_⟩; have := hx.2
      cases b <;> simp_all; linarith
    exact ((hpa _ h1).trans_lt (hg h1 hx (by linarith))).ne'
  · rintro rfl
    simp only [fin_eq, ← hp]
    have h1 : x + 1 ∈ dom a pinf := by
      refine ⟨?_, trivial⟩; have := hx.1
      cases a <;> simp_all; linarith
    exact ((hg hx h1 (by linarith)).trans_le (hpb _ h1)).ne

/-- C28 `_find_bracket` with a decreasing function. -/
theorem findBracket_anti (hab : a < b)
    (hf : ∀ t ∈ dom a b, func (fin t) = .ok (fin (g t)))
    (ha : func a = .ok (fin pa)) (hb : func b = .ok (fin pb))
    (hg : StrictAntiOn g (dom a b)) (hpa : ∀ t ∈ dom a b, g t ≤ pa)
    (hpb : ∀ t ∈ dom a b, pb ≤ g t) (hx : x ∈ dom a b) (hp : g x = p) (nb : Option ℕ) :
    ∃ lo hi N, lo ∈ dom a b ∧ hi ∈ dom a b ∧ lo ≤ x ∧ x ≤ hi ∧
      (∀ u v : ℝ, a = fin u → b = fin v → hi - lo ≤ (v - u) / 2 ^ (nb.getD 8)) ∧
      ∀ fuel ≥ N, findBracket fuel func (fin p) a b nb = .ok (fin lo, fin hi) := by
  obtain ⟨y, hy⟩ : ∃ y ∈ dom a b, y ≠ x := by
    cases a <;> cases b <;> simp [dom] at hab hx ⊢
    · rename_i u v
      rcases eq_or_ne x u with rfl | h
      · exact ⟨v, ⟨hab.le, le_rfl⟩, hab.ne'⟩
      · exact ⟨u, ⟨le_rfl, hab.le⟩, h.symm⟩
    · exact ⟨x + 1, by linarith, by linarith⟩
    · exact ⟨x - 1, by linarith, by linarith⟩
    · exact ⟨x + 1, by linarith⟩
  have hlt : pb < pa := by
    rcases lt_or_gt_of_ne hy.2 with h | h
    · exact (hpb x hx).trans_lt ((hg hy.1 hx h).trans_le (hpa y hy.1))
    · exact (hpb y hy.1).trans_lt ((hg hx hy.1 h).trans_le (hpa x hx))
  refine findBracket_spec hab ha hb ⟨fun t ht => ⟨_, hf t ht, ?_, ?_⟩⟩ hx ?_ ?_ nb
  · rw [fin_sub, fin_sub, sign_eq_neg (sub_neg.2 hlt), sub_neg, ← hp, hg.lt_iff_gt hx ht]
  · rw [fin_eq, ← hp]
    exact ⟨fun h => hg.injOn ht hx h, fun h => by rw [h]⟩
  · rintro rfl
    simp only [fin_eq, ← hp]
    have h1 : x - 1 ∈ dom ninf b := by
      refine ⟨trivial, ?_⟩; have := hx.2
      cases b <;> simp_all; linarith
    exact ((hg h1 hx (by linarith)).trans_le (hpa _ h1)).ne
  · rintro rfl
    simp only [fin_eq, ← hp]
    have h1 : x + 1 ∈ dom a pinf := by
      refine ⟨?_, trivial⟩; have := hx.1
      cases a <;> simp_all; linarith
    exact ((hpb _ h1).trans_lt (hg hx h1 (by linarith))).ne'

/-- The hypotheses can be met: `x ↦ 2 x` on `[0, 3]`, solving `2 x = 1`. -/
example : ∃ lo hi N, lo ≤ (1 / 2 : ℝ) ∧ (1 / 2 : ℝ) ≤ hi ∧ hi - lo ≤ 3 / 2 ^ 8 ∧
    ∀ fuel ≥ N, findBracket fuel (fun t => .ok (2 * t)) (fin 1) (fin 0) (fin 3) none =
      .ok (fin lo, fin hi) := by
  obtain ⟨lo, hi, N, -, -, h1, h2, h3, h4⟩ := findBracket_mono (func := fun t => .ok (2 * t))
    (g := fun t => 2 * t) (a := fin 0) (b := fin 3) (pa := 0) (pb := 6) (p := 1) (x := 1 / 2)
    (by simp) (by intros; simp) (by simp) (by simp; norm_num)
    (fun s _ t _ h => by simpa using h) (fun t ht => by have := ht.1; simp_all)
    (fun t ht => by have := ht.2; simp only [fin_le] at this; linarith)
    ⟨by simp, by simp; norm_num⟩ (by norm_num) none
  exact ⟨lo, hi, N, h1, h2, by simpa using h3 0 3 rfl rfl, h4⟩

/-- Growing by the factor 1.5 passes the solution. -/
theorem grow_ends {cond : Num → M Prop} (hc : ∀ t : ℝ, 1 ≤ t → cond (fin t) = .ok (t < x)) :
    ∃ N r, 1 ≤ r ∧ x ≤ r ∧ ∀ n ≥ N, loop cond (fun s => return s * fin 1.5) n (fin 1) =
      .ok (fin r) := by
  obtain ⟨N, s, ⟨r, rfl, h1⟩, h2, h3⟩ := loop_ends (cond := cond)
    (step := fun s => return s * fin 1.5)
    (fun s => ∃ r : ℝ, s = fin r ∧ 1 ≤ r)
    (fun s => ⌈1 + 2 * (x - val s)⌉₊) (fun s => val s < x) (fun s => fin (val s * 1.5))
    (by rintro s ⟨r, rfl, h⟩; simp [hc r h])
    (by rintro s ⟨r, rfl, -⟩; simp)
    (by rintro s ⟨r, rfl, h⟩ -; exact ⟨r * 1.5, rfl, by norm_num; linarith⟩)
    (by
      rintro s ⟨r, rfl, h⟩ h2
      simp only [val_fin] at h2
      apply ceil_lt <;> simp only [val_fin] <;> norm_num <;> linarith)
    (s := fin 1) ⟨1, rfl, le_rfl⟩
  exact ⟨N, r, h1, by simpa using h2, h3⟩

theorem grow_ends_neg {cond : Num → M Prop} (hc : ∀ t : ℝ, t ≤ -1 → cond (fin t) = .ok (x < t)) :
    ∃ N r, r ≤ -1 ∧ r ≤ x ∧ ∀ n ≥ N, loop cond (fun s => return s * fin 1.5) n (fin (-1)) =
      .ok (fin r) := by
  obtain ⟨N, s, ⟨r, rfl, h1⟩, h2, h3⟩ := loop_ends (cond := cond)
    (step := fun s => return s * fin 1.5)
    (fun s => ∃ r : ℝ, s = fin r ∧ r ≤ -1)
    (fun s => ⌈1 + 2 * (val s - x)⌉₊) (fun s => x < val s) (fun s => fin (val s * 1.5))
    (by rintro s ⟨r, rfl, h⟩; simp [hc r h])
    (by rintro s ⟨r, rfl, -⟩; simp)
    (by rintro s ⟨r, rfl, h⟩ -; exact ⟨r * 1.5, rfl, by norm_num; linarith⟩)
    (by
      rintro s ⟨r, rfl, h⟩ h2
      simp only [val_fin] at h2
      apply ceil_lt <;> simp only [val_fin] <;> norm_num <;> linarith)
    (s := fin (-1)) ⟨-1, rfl, le_rfl⟩
  exact ⟨N, r, h1, by simpa using h2, h3⟩

theorem shrink_ends {cond : Num → M Prop} (hx : 0 < x)
    (hc : ∀ t : ℝ, 0 < t → cond (fin t) = .ok (x < t)) :
    ∃ N r, 0 < r ∧ r ≤ x ∧ ∀ n ≥ N, loop cond (fun s => return s * fin 0.5) n (fin 1) =
      .ok (fin r) := by
  obtain ⟨N, s, ⟨r, rfl, h1, -⟩, h2, h3⟩ := loop_ends (cond := cond)
    (step := fun s => return s * fin 0.5)
    (fun s => ∃ r : ℝ, s = fin r ∧ 0 < r ∧ r ≤ 1)
    (fun s => ⌈1 + 1 / x - 1 / val s⌉₊) (fun s => x < val s) (fun s => fin (val s * 0.5))
    (by rintro s ⟨r, rfl, h⟩; simp [hc r h.1])
    (by rintro s ⟨r, rfl, -⟩; simp)
    (by rintro s ⟨r, rfl, h, h'⟩ -; exact ⟨r * 0.5, rfl, by positivity, by norm_num; linarith⟩)
    (by
      rintro s ⟨r, rfl, h, h'⟩ h2
      simp only [val_fin] at h2
      have e : 1 / (r * 0.5) = 1 / r + 1 / r := by field_simp; norm_num
      have h4 : 1 ≤ 1 / r := (one_le_div h).2 h'
      have h5 : 1 / r ≤ 1 / x := one_div_le_one_div_of_le hx h2.le
      apply ceil_lt <;> simp only [val_fin]
      · rw [e]; linarith
      · linarith)
    (s := fin 1) ⟨1, rfl, one_pos, le_rfl⟩
  exact ⟨N, r, h1, by simpa using h2, h3⟩

/-- C28 `_find_bracket_by_expansion_neginf_inf`: for an increasing function with direction 1 and
for a decreasing one with direction -1, the call terminates and brackets the solution. -/
theorem expandNeginfInf_brackets {direction : ℤ}
    (hf : ∀ t : ℝ, func (fin t) = .ok (fin (g t)))
    (hg : (direction = 1 ∧ StrictMono g) ∨ (direction = -1 ∧ StrictAnti g)) (hp : g x = p) :
    Brackets (fun fuel => expandNeginfInf fuel func (fin p) direction) Set.univ x := by
  have hH : ∀ t : ℝ, notHighEnough func (fin p) direction (fin t) = .ok (t < x) := by
    intro t
    rcases hg with ⟨rfl, hg⟩ | ⟨rfl, hg⟩
    · simp [notHighEnough, hf, ← hp, hg.lt_iff_lt]
    · simp [notHighEnough, hf, ← hp, hg.lt_iff_gt]
  have hL : ∀ t : ℝ, notLowEnough func (fin p) direction (fin t) = .ok (x < t) := by
    intro t
    rcases hg with ⟨rfl, hg⟩ | ⟨rfl, hg⟩
    · simp [notLowEnough, hf, ← hp, hg.lt_iff_lt]
    · simp [notLowEnough, hf, ← hp, hg.lt_iff_gt]
  have hd : ¬ (direction ≠ -1 ∧ direction ≠ 1) := by
    rcases hg with ⟨rfl, -⟩ | ⟨rfl, -⟩ <;> simp
  obtain ⟨N, r, -, h2, h3⟩ := grow_ends fun t _ => hH t
  obtain ⟨N', r', -, h2', h3'⟩ := grow_ends_neg fun t _ => hL t
  refine ⟨if x < 0 then r' else 0, if 0 < x then r else 0, max N N', trivial, trivial, ?_, ?_, ?_⟩
  · split_ifs with h <;> linarith
  · split_ifs with h <;> linarith
  · intro n hn
    have e := h3 n (le_trans (le_max_left _ _) hn)
    have e' := h3' n (le_trans (le_max_right _ _) hn)
    simp only [expandNeginfInf, hd, if_false, zero_def, one_def, hH, hL, ok_bind, e, e', neg_fin]
    split_ifs <;> rfl

/-- C28 `_find_bracket_by_expansion_0_inf`: the same on the positive half-line. -/
theorem expand0Inf_brackets {direction : ℤ}
    (hf : ∀ t : ℝ, 0 < t → func (fin t) = .ok (fin (g t)))
    (hg : (direction = 1 ∧ StrictMonoOn g (Set.Ioi 0)) ∨
      (direction = -1 ∧ StrictAntiOn g (Set.Ioi 0))) (hx : 0 < x) (hp : g x = p) :
    Brackets (fun fuel => expand0Inf fuel func (fin p) direction) (Set.Ioi 0) x := by
  have hH : ∀ t : ℝ, 0 < t → notHighEnough func (fin p) direction (fin t) = .ok (t < x) := by
    intro t ht
    rcases hg with ⟨rfl, hg⟩ | ⟨rfl, hg⟩
    · simp [notHighEnough, hf t ht, ← hp, hg.lt_iff_lt ht hx]
    · simp [notHighEnough, hf t ht, ← hp, hg.lt_iff_gt hx ht]
  have hL : ∀ t : ℝ, 0 < t → notLowEnough func (fin p) direction (fin t) = .ok (x < t) := by
    intro t ht
    rcases hg with ⟨rfl, hg⟩ | ⟨rfl, hg⟩
    · simp [notLowEnough, hf t ht, ← hp, hg.lt_iff_lt hx ht]
    · simp [notLowEnough, hf t ht, ← hp, hg.lt_iff_gt ht hx]
  have hd : ¬ (direction ≠ -1 ∧ direction ≠ 1) := by
    rcases hg with ⟨rfl, -⟩ | ⟨rfl, -⟩ <;> simp
  obtain ⟨N, r, h1, h2, h3⟩ := grow_ends fun t ht => hH t (by linarith)
  obtain ⟨N', r', h1', h2', h3'⟩ := shrink_ends (cond := fun x => do
      if x > 0 then notLowEnough func (fin p) direction x else return False) hx fun t ht => by
    simp [ht, hL t ht]
  refine ⟨r', r, max N N', h1', by simp only [Set.mem_Ioi]; linarith, h2', h2, fun n hn => ?_⟩
  have e := h3 n (le_trans (le_max_left _ _) hn)
  have e' := h3' n (le_trans (le_max_right _ _) hn)
  simp only [expand0Inf, hd, if_false, one_def, ok_bind, e, e']; rfl

/-- C28 any other direction is rejected. -/
theorem expand_rejects {direction : ℤ} (h : direction ≠ -1 ∧ direction ≠ 1) (fuel : ℕ) (q : Num) :
    expand0Inf fuel func q direction = .error .valueError ∧
      expandNeginfInf fuel func q direction = .error .valueError := by
  constructor
  · simp only [expand0Inf, if_pos h]; rfl
  · simp only [expandNeginfInf, if_pos h]; rfl

/-- The hypotheses can be met: the decreasing function `1/x` on the positive half-line. -/
example : Brackets (fun fuel => expand0Inf fuel (fun t => 1 /. t) (fin 4) (-1)) (Set.Ioi 0)
    (1 / 4) := by
  refine expand0Inf_brackets (g := fun t => 1 / t) (fun t ht => ?_) (.inr ⟨rfl, ?_⟩) (by norm_num)
    (by norm_num)
  · simp [fin_div _ ht.ne']
  · intro s hs t ht h
    exact one_div_lt_one_div_of_lt hs h

example : Brackets (fun fuel => expandNeginfInf fuel (fun t => .ok (t + t)) (fin 4) 1) Set.univ
    2 := by
  refine expandNeginfInf_brackets (g := fun t => t + t) (fun t => by simp) (.inl ⟨rfl, ?_⟩)
    (by norm_num)
  intro s t h; simp only; linarith

end Mpsci.common
