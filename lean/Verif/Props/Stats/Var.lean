import Verif.Lemmas.Stats.Basic

/-! Properties of `stats.var`, `std`, `variation`. -/

namespace Mpsci.stats

open Classical Num Spec

/-- Arithmetic mean of a list of reals. -/
noncomputable def amean (x : List ℝ) : ℝ := x.sum / x.length

variable {x : List ℝ} {ddof : ℝ}

theorem var_eval (hx : x ≠ []) (hd : (x.length : ℝ) ≠ ddof) : var (nums x) (fin ddof) =
    .ok (fin ((x.map fun t => (t - amean x) ^ 2).sum / (x.length - ddof))) := by
  have hl : (x.length : ℝ) ≠ 0 := by simpa using hx
  have h2 : (x.length : ℝ) - ddof ≠ 0 := sub_ne_zero.2 hd
  have e : (nums x).map (fun t => (t - fin (amean x)) * (t - fin (amean x))) =
      x.map fun t => fin ((t - amean x) ^ 2) := by
    simp [nums, Function.comp_def, pow_two]
  have hlen : len (nums x) = fin x.length := by simp [len, nums]
  rw [var, fsum_nums, hlen, fin_div _ hl, ok_bind, ← amean, e, mp.fsum_map_fin, fin_sub,
    fin_div _ h2]

/-- C23: the variance is the sum of squared deviations from the mean over `n - ddof`, and the
standard deviation is its square root. -/
theorem var_value (hx : x ≠ []) (hd : ddof < x.length) : ∃ v, 0 ≤ v ∧
    v = (x.map fun t => (t - x.sum / x.length) ^ 2).sum / (x.length - ddof) ∧
    var (nums x) (fin ddof) = .ok (fin v) ∧ std (nums x) (fin ddof) = .ok (fin (Real.sqrt v)) := by
  have h0 : 0 ≤ (x.map fun t => (t - amean x) ^ 2).sum :=
    List.sum_nonneg (by intro a ha; obtain ⟨t, _, rfl⟩ := List.mem_map.1 ha; positivity)
  have h1 := div_nonneg h0 (by linarith : 0 ≤ (x.length : ℝ) - ddof)
  refine ⟨_, h1, rfl, var_eval hx hd.ne', ?_⟩
  rw [std, var_eval hx hd.ne', ok_bind, mp.sqrt_nonneg h1]

theorem sum_map_eq_zero {f : ℝ → ℝ} (h : ∀ t ∈ x, 0 ≤ f t) :
    (x.map f).sum = 0 ↔ ∀ t ∈ x, f t = 0 := by
  induction x with
  | nil => simp
  | cons a l ih =>
    have h1 := h a (by simp)
    have h2 : 0 ≤ (l.map f).sum :=
      List.sum_nonneg (by
        intro b hb
        obtain ⟨t, ht, rfl⟩ := List.mem_map.1 hb
        exact h t (List.mem_cons_of_mem _ ht))
    have h3 := ih fun t ht => h t (List.mem_cons_of_mem _ ht)
    simp only [List.map_cons, List.sum_cons, List.forall_mem_cons, ← h3]
    constructor
    · intro h4; constructor <;> linarith
    · rintro ⟨h4, h5⟩; rw [h4, h5, add_zero]

/-- C23: the variance is nonnegative, and zero exactly for constant data. -/
theorem var_nonneg (hx : x ≠ []) (hd : ddof < x.length) : ∃ v,
    var (nums x) (fin ddof) = .ok (fin v) ∧ 0 ≤ v ∧ (v = 0 ↔ ∃ c, ∀ t ∈ x, t = c) := by
  obtain ⟨v, h0, h1, h2, -⟩ := var_value hx hd
  refine ⟨v, h2, h0, ?_⟩
  have hn : (x.length : ℝ) - ddof ≠ 0 := by linarith
  rw [h1, div_eq_zero_iff, or_iff_left hn, sum_map_eq_zero (fun t _ => sq_nonneg _)]
  constructor
  · intro h
    exact ⟨x.sum / x.length, fun t ht => by have := pow_eq_zero_iff (two_ne_zero) |>.1 (h t ht); linarith⟩
  · rintro ⟨c, hc⟩ t ht
    have e : x = List.replicate x.length c := List.eq_replicate_iff.2 ⟨rfl, hc⟩
    have hl : (x.length : ℝ) ≠ 0 := by simpa using hx
    have : x.sum = x.length * c := by
      conv_lhs => rw [e]
      simp
    rw [this, mul_div_cancel_left₀ _ hl, hc t ht, sub_self]; norm_num

theorem amean_add (hx : x ≠ []) (c : ℝ) : amean (x.map (· + c)) = amean x + c := by
  have hl : (x.length : ℝ) ≠ 0 := by simpa using hx
  have : (x.map (· + c)).sum = x.sum + x.length * c := by
    rw [List.sum_map_add]; simp
  rw [amean, amean, this, List.length_map]
  field_simp

theorem amean_mul (c : ℝ) : amean (x.map (c * ·)) = c * amean x := by
  rw [amean, amean, List.sum_map_mul_left, List.length_map, mul_div_assoc]; simp

/-- C23: adding a constant to the data changes neither variance nor standard deviation. -/
theorem var_shift (hx : x ≠ []) (hd : (x.length : ℝ) ≠ ddof) (c : ℝ) :
    var (nums (x.map (· + c))) (fin ddof) = var (nums x) (fin ddof) ∧
    std (nums (x.map (· + c))) (fin ddof) = std (nums x) (fin ddof) := by
  have h : var (nums (x.map (· + c))) (fin ddof) = var (nums x) (fin ddof) := by
    rw [var_eval hx hd, var_eval (by simpa using hx) (by simpa using hd), amean_add hx]
    simp [Function.comp_def]
  exact ⟨h, by rw [std, std, h]⟩

/-- C23: multiplying the data by `c` multiplies the variance by `c**2` and the standard deviation by
`|c|`. -/
theorem var_scale (hx : x ≠ []) (hd : ddof < x.length) (c : ℝ) : ∃ v s,
    var (nums x) (fin ddof) = .ok (fin v) ∧ std (nums x) (fin ddof) = .ok (fin s) ∧
    var (nums (x.map (c * ·))) (fin ddof) = .ok (fin (c ^ 2 * v)) ∧
    std (nums (x.map (c * ·))) (fin ddof) = .ok (fin (|c| * s)) := by
  obtain ⟨v, h0, h1, h2, h3⟩ := var_value hx hd
  have e : var (nums (x.map (c * ·))) (fin ddof) = .ok (fin (c ^ 2 * v)) := by
    rw [var_eval (by simpa using hx) (by simpa using hd.ne'), amean_mul, h1]
    congr 2
    rw [← mul_div_assoc, ← List.sum_map_mul_left]
    simp only [List.map_map, Function.comp_def, List.length_map]
    congr 3
    funext t
    rw [amean]; ring
  refine ⟨v, _, h2, h3, e, ?_⟩
  rw [std, e, ok_bind, mp.sqrt_nonneg (mul_nonneg (sq_nonneg c) h0), Real.sqrt_mul (sq_nonneg c),
    Real.sqrt_sq_eq_abs]

/-- C23: `variation` is the standard deviation over the mean, and unchanged when positive data are
multiplied by a positive constant. -/
theorem variation_scale (hd : ddof < x.length) (hx : x ≠ []) (h0 : ∀ t ∈ x, 0 < t) {c : ℝ}
    (hc : 0 < c) : ∃ s m, std (nums x) (fin ddof) = .ok (fin s) ∧ mean (nums x) = .ok (fin m) ∧
      variation (nums x) (fin ddof) = .ok (fin (s / m)) ∧
      variation (nums (x.map (c * ·))) (fin ddof) = .ok (fin (s / m)) := by
  obtain ⟨v, s, e1, e2, e3, e4⟩ := var_scale hx hd c
  have hl : (0:ℝ) < x.length := by
    have := List.length_pos_iff.2 hx
    exact_mod_cast this
  have m1 : mean (nums x) = .ok (fin (amean x)) := by
    simp [mean, nums, mp.fsum_fin, len, fin_div _ hl.ne', amean]
  have m2 : mean (nums (x.map (c * ·))) = .ok (fin (c * amean x)) := by
    have : mean (nums (x.map (c * ·))) = .ok (fin (amean (x.map (c * ·)))) := by
      have e : nums (x.map (c * ·)) = (x.map (c * ·)).map fin := rfl
      simp only [mean, e, mp.fsum_fin, len]
      simp only [List.length_map, fin_div _ hl.ne', amean]
    rw [this, amean_mul]
  have hm : 0 < amean x := by
    have : 0 < x.sum := List.sum_pos x h0 hx
    exact div_pos this hl
  refine ⟨s, _, e2, m1, ?_, ?_⟩
  · rw [variation, e2, m1, ok_bind, ok_bind, fin_div _ hm.ne']
  · rw [variation, e4, m2, ok_bind, ok_bind, fin_div _ (mul_pos hc hm).ne', abs_of_pos hc,
      mul_div_mul_left _ _ hc.ne']

/-- C23: error branches: no data, or as many data values as `ddof`. -/
theorem var_errors (ddof : Num) :
    var [] ddof = .error .zeroDivision ∧
    (∀ x : List ℝ, x ≠ [] → var (nums x) (fin x.length) = .error .zeroDivision) := by
  constructor
  · simp [var, len]
  · intro x hx
    have hl : (x.length : ℝ) ≠ 0 := by simpa using hx
    have hlen : len (nums x) = fin x.length := by simp [len, nums]
    have e : (nums x).map (fun t => (t - fin (amean x)) * (t - fin (amean x))) =
        x.map fun t => fin ((t - amean x) ^ 2) := by
      simp [nums, Function.comp_def, pow_two]
    rw [var, fsum_nums, hlen, fin_div _ hl, ok_bind, ← amean, e, mp.fsum_map_fin, fin_sub]
    simp

/-- Non-vacuity: `var([1, 2, 6]) = 14/3`. -/
example : ((0:ℝ) < ([1, 2, 6] : List ℝ).length) ∧ var (nums [1, 2, 6]) (fin 0) = .ok (fin (14 / 3)) := by
  have : (0:ℝ) < ([1, 2, 6] : List ℝ).length := by norm_num
  refine ⟨this, ?_⟩
  rw [var_eval (by simp) this.ne']; norm_num [amean]

end Mpsci.stats
