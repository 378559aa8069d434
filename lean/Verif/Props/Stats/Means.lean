import Verif.Lemmas.Stats.Basic

/-! Properties of `stats.mean`, `gmean`, `hmean`, `pmean`, `lehmer_mean`. -/

namespace Mpsci.stats

open Classical Num Spec

variable {x : List ℝ} {W : Option (List ℝ)}

/-- C20: the arithmetic mean is the weighted sum of the data over the sum of the weights, for real
data of any sign. -/
theorem mean_value (hx : x ≠ []) (hW : GoodWeights x W) :
    mean (nums x) (optNums W) = .ok (fin (wsum x W id / wsum x W (fun _ => 1))) := by
  rw [mean_eval hx hW, avg_eq_wsum hW]

/-- C20: the geometric and harmonic mean of positive data. -/
theorem gmean_hmean_value (hx : x ≠ []) (h0 : ∀ t ∈ x, 0 < t) (hW : GoodWeights x W) :
    gmean (nums x) (optNums W) =
      .ok (fin (Real.exp (wsum x W Real.log / wsum x W (fun _ => 1)))) ∧
    hmean (nums x) (optNums W) =
      .ok (fin (wsum x W (fun _ => 1) / wsum x W (fun t => 1 / t))) := by
  rw [gmean_eval hx h0 hW, hmean_eval hx h0 hW, avg_eq_wsum hW, avg_eq_wsum hW, one_div_div]
  exact ⟨rfl, rfl⟩

/-- C20: the power mean of positive data for a finite nonzero exponent. -/
theorem pmean_value (hx : x ≠ []) (h0 : ∀ t ∈ x, 0 < t) (hW : GoodWeights x W) {p : ℝ} (hp : p ≠ 0) :
    pmean (nums x) (fin p) (optNums W) =
      .ok (fin ((wsum x W (fun t => t ^ p) / wsum x W (fun _ => 1)) ^ (1 / p))) := by
  rw [pmean_eval hx h0 hW, pm, if_neg hp, avg_eq_wsum hW]

/-- C20: every power mean of positive data (any exponent, infinite ones included) lies between the
smallest and the largest value. -/
theorem pmean_between (hx : x ≠ []) (h0 : ∀ t ∈ x, 0 < t) (hW : GoodWeights x W) {p : Num}
    (hp : p ≠ nan) : ∃ m, pmean (nums x) p (optNums W) = .ok (fin m) ∧
      ∃ a ∈ x, ∃ b ∈ x, a ≤ m ∧ m ≤ b := by
  obtain ⟨b, hb, hb', eb⟩ := pmean_pinf hx
  obtain ⟨a, ha, ha', ea⟩ := pmean_ninf hx
  cases p with
  | nan => exact absurd rfl hp
  | pinf => exact ⟨b, eb _, b, hb, b, hb, le_rfl, le_rfl⟩
  | ninf => exact ⟨a, ea _, a, ha, a, ha, le_rfl, le_rfl⟩
  | fin p =>
    refine ⟨_, pmean_eval hx h0 hW p, a, ha, b, hb, ?_, ?_⟩
    · exact le_pm (good_dat hx hW) (pos_dat h0) (h0 a ha) (fun q hq => ha' _ (mem_dat hq)) p
    · exact pm_le (good_dat hx hW) (pos_dat h0) (fun q hq => hb' _ (mem_dat hq)) p

/-- C20: the geometric, harmonic and arithmetic means of positive data lie between the smallest and
the largest value. -/
theorem means_between (hx : x ≠ []) (h0 : ∀ t ∈ x, 0 < t) (hW : GoodWeights x W) :
    ∃ h g m, hmean (nums x) (optNums W) = .ok (fin h) ∧ gmean (nums x) (optNums W) = .ok (fin g) ∧
      mean (nums x) (optNums W) = .ok (fin m) ∧
      ∃ a ∈ x, ∃ b ∈ x, a ≤ h ∧ h ≤ b ∧ a ≤ g ∧ g ≤ b ∧ a ≤ m ∧ m ≤ b := by
  have G := good_dat hx hW
  have P : Pos (dat x W) := pos_dat h0
  obtain ⟨b, hb, hb', eb⟩ := pmean_pinf hx
  obtain ⟨a, ha, ha', ea⟩ := pmean_ninf hx
  have L := le_pm G P (h0 a ha) (fun q hq => ha' _ (mem_dat hq))
  have U := pm_le G P (fun q hq => hb' _ (mem_dat hq))
  refine ⟨pm (dat x W) (-1), pm (dat x W) 0, pm (dat x W) 1, ?_, ?_, ?_, a, ha, b, hb,
    L _, U _, L _, U _, L _, U _⟩
  · rw [hmean_eval hx h0 hW, pm_neg_one G P]
  · rw [gmean_eval hx h0 hW, pm, if_pos rfl]
  · rw [mean_eval hx hW, pm_one G P]

/-- C20: the arithmetic mean of real data of any sign lies between the smallest and the largest
value. -/
theorem mean_between (hx : x ≠ []) (hW : GoodWeights x W) :
    ∃ m, mean (nums x) (optNums W) = .ok (fin m) ∧ ∃ a ∈ x, ∃ b ∈ x, a ≤ m ∧ m ≤ b := by
  have G := good_dat hx hW
  obtain ⟨b, hb, hb', eb⟩ := pmean_pinf hx
  obtain ⟨a, ha, ha', ea⟩ := pmean_ninf hx
  refine ⟨_, mean_eval hx hW, a, ha, b, hb, ?_, ?_⟩
  · rw [← avg_const G a]; exact avg_mono G fun q hq => ha' _ (mem_dat hq)
  · rw [← avg_const G b]; exact avg_mono G fun q hq => hb' _ (mem_dat hq)

/-- C20: a constant sequence has that constant as its mean. -/
theorem means_const {n : ℕ} {c : ℝ} (hn : 0 < n) (hc : 0 < c) {p : Num} (hp : p ≠ nan)
    (hW : GoodWeights (List.replicate n c) W) :
    mean (nums (List.replicate n c)) (optNums W) = .ok (fin c) ∧
    gmean (nums (List.replicate n c)) (optNums W) = .ok (fin c) ∧
    hmean (nums (List.replicate n c)) (optNums W) = .ok (fin c) ∧
    pmean (nums (List.replicate n c)) p (optNums W) = .ok (fin c) := by
  have hx : List.replicate n c ≠ [] := by simp [hn.ne']
  have h0 : ∀ t ∈ List.replicate n c, 0 < t := by
    intro t ht; rw [(List.mem_replicate.1 ht).2]; exact hc
  obtain ⟨h, g, m, e1, e2, e3, a, ha, b, hb, i1, i2, i3, i4, i5, i6⟩ := means_between hx h0 hW
  obtain ⟨q, e4, a', ha', b', hb', j1, j2⟩ := pmean_between hx h0 hW hp
  rw [(List.mem_replicate.1 ha).2] at i1 i3 i5
  rw [(List.mem_replicate.1 hb).2] at i2 i4 i6
  rw [(List.mem_replicate.1 ha').2] at j1
  rw [(List.mem_replicate.1 hb').2] at j2
  rw [e1, e2, e3, e4, le_antisymm i2 i1, le_antisymm i4 i3, le_antisymm i6 i5, le_antisymm j2 j1]
  exact ⟨rfl, rfl, rfl, rfl⟩

/-- C20: multiplying all weights by the same positive constant changes nothing. -/
theorem means_scale_weights {w : List ℝ} {k : ℝ} (hk : 0 < k) (hx : x ≠ []) (h0 : ∀ t ∈ x, 0 < t)
    (hW : GoodWeights x (some w)) {p : Num} (hp : p ≠ nan) :
    mean (nums x) (some (nums (w.map (k * ·)))) = mean (nums x) (some (nums w)) ∧
    gmean (nums x) (some (nums (w.map (k * ·)))) = gmean (nums x) (some (nums w)) ∧
    hmean (nums x) (some (nums (w.map (k * ·)))) = hmean (nums x) (some (nums w)) ∧
    pmean (nums x) p (some (nums (w.map (k * ·)))) = pmean (nums x) p (some (nums w)) := by
  have hW' := goodWeights_smul hk hW
  have m1 := mean_eval hx hW'
  have m2 := mean_eval hx hW
  have g1 := gmean_eval hx h0 hW'
  have g2 := gmean_eval hx h0 hW
  have h1 := hmean_eval hx h0 hW'
  have h2 := hmean_eval hx h0 hW
  simp only [optNums, Option.map_some] at m1 m2 g1 g2 h1 h2
  rw [m1, m2, g1, g2, h1, h2]
  simp only [avg_smul hk hW, true_and]
  cases p with
  | nan => exact absurd rfl hp
  | pinf => obtain ⟨b, _, _, eb⟩ := pmean_pinf hx; rw [eb, eb]
  | ninf => obtain ⟨b, _, _, eb⟩ := pmean_ninf hx; rw [eb, eb]
  | fin p =>
    have p1 := pmean_eval hx h0 hW' p
    have p2 := pmean_eval hx h0 hW p
    simp only [optNums, Option.map_some] at p1 p2
    rw [p1, p2]; simp only [pm, avg_smul hk hW]

/-- C20: integer weights give the mean of the data set in which each value is repeated as often as
its weight says.  (For infinite exponents `pmean` ignores the weights, so there every count must be
positive, see `pmean_inf_ignores_weights`.) -/
theorem means_replicated {c : List ℕ} (hc : c.length = x.length) (hs : 0 < c.sum) (hx : x ≠ [])
    (h0 : ∀ t ∈ x, 0 < t) (p : ℝ) :
    mean (nums (replicated x c)) none = mean (nums x) (some (nums (c.map fun n : ℕ => (n : ℝ)))) ∧
    gmean (nums (replicated x c)) none = gmean (nums x) (some (nums (c.map fun n : ℕ => (n : ℝ)))) ∧
    hmean (nums (replicated x c)) none = hmean (nums x) (some (nums (c.map fun n : ℕ => (n : ℝ)))) ∧
    pmean (nums (replicated x c)) (fin p) none =
      pmean (nums x) (fin p) (some (nums (c.map fun n : ℕ => (n : ℝ)))) := by
  have hW := goodWeights_counts hc hs
  have hN := goodWeights_none (replicated x c)
  have hne := replicated_ne_nil (x := x) hc hs
  have h0' : ∀ t ∈ replicated x c, 0 < t := fun t ht => h0 t (mem_replicated ht)
  have m1 := mean_eval hne hN
  have m2 := mean_eval hx hW
  have g1 := gmean_eval hne h0' hN
  have g2 := gmean_eval hx h0 hW
  have h1 := hmean_eval hne h0' hN
  have h2 := hmean_eval hx h0 hW
  have p1 := pmean_eval hne h0' hN p
  have p2 := pmean_eval hx h0 hW p
  simp only [optNums, Option.map_some, Option.map_none] at m1 m2 g1 g2 h1 h2 p1 p2
  rw [m1, m2, g1, g2, h1, h2, p1, p2]
  simp only [pm, avg_replicated hc hs, true_and]

/-- C20: what `pmean` does with weights when the exponent is infinite: it ignores them, so a value
of weight 0 counts.  `pmean([1, 2], p=inf, weights=[1, 0]) = 2`, although the data set with each value
repeated as often as its weight says is `[1]`. -/
theorem pmean_inf_ignores_weights :
    pmean (nums [1, 2]) pinf (some (nums [1, 0])) = .ok (fin 2) ∧
    pmean (nums (replicated [1, 2] [1, 0])) pinf none = .ok (fin 1) := by
  constructor
  · simp [pmean, py.max, nums]
  · simp [pmean, py.max, nums, replicated]

/-- C20: error branches of the means. -/
theorem mean_errors (x w : List Num) (p : Num) :
    (w.length ≠ x.length → mean x (some w) = .error .valueError) ∧
    (mean [] none = .error .zeroDivision) ∧
    (w.length = x.length → mp.fsum w =. 0 → mean x (some w) = .error .zeroDivision) ∧
    ((∃ t ∈ x, t < 0) → gmean x (some w) = .error .valueError ∧ gmean x none = .error .valueError) ∧
    (mp.fsum w =. 0 → gmean x (some w) = .error .valueError) ∧
    (p = pinf ∨ p = ninf → pmean [] p none = .error .valueError) := by
  refine ⟨?_, ?_, ?_, ?_, ?_, ?_⟩
  · intro h; simp [mean, h]
  · simp [mean, len]
  · intro h h'; simp only [mean, h, h']; simp
  · intro h; simp only [gmean, h]; simp
  · intro h; simp only [gmean, h]; by_cases h' : ∃ t ∈ x, t < 0 <;> simp only [h'] <;> simp
  · rintro (rfl | rfl) <;> simp [pmean, py.max, py.min]

/-- C21: harmonic mean ≤ geometric mean ≤ arithmetic mean. -/
theorem hm_le_gm_le_am (hx : x ≠ []) (h0 : ∀ t ∈ x, 0 < t) (hW : GoodWeights x W) :
    ∃ h g m, hmean (nums x) (optNums W) = .ok (fin h) ∧ gmean (nums x) (optNums W) = .ok (fin g) ∧
      mean (nums x) (optNums W) = .ok (fin m) ∧ h ≤ g ∧ g ≤ m := by
  have G := good_dat hx hW
  have P : Pos (dat x W) := pos_dat h0
  refine ⟨pm (dat x W) (-1), pm (dat x W) 0, pm (dat x W) 1, ?_, ?_, ?_,
    pm_mono G P (by norm_num), pm_mono G P (by norm_num)⟩
  · rw [hmean_eval hx h0 hW, pm_neg_one G P]
  · rw [gmean_eval hx h0 hW, pm, if_pos rfl]
  · rw [mean_eval hx hW, pm_one G P]

/-- C21: `pmean` increases with the exponent, infinite and special-cased exponents included. -/
theorem pmean_mono (hx : x ≠ []) (h0 : ∀ t ∈ x, 0 < t) (hW : GoodWeights x W) {p q : Num}
    (hpq : p ≤ q) : ∃ a b, pmean (nums x) p (optNums W) = .ok (fin a) ∧
      pmean (nums x) q (optNums W) = .ok (fin b) ∧ a ≤ b := by
  have G := good_dat hx hW
  have P : Pos (dat x W) := pos_dat h0
  obtain ⟨b, hb, hb', eb⟩ := pmean_pinf hx
  obtain ⟨a, ha, ha', ea⟩ := pmean_ninf hx
  have L := le_pm G P (h0 a ha) (fun q hq => ha' _ (mem_dat hq))
  have U := pm_le G P (fun q hq => hb' _ (mem_dat hq))
  cases p with
  | nan => simp at hpq
  | pinf =>
    cases q with
    | pinf => exact ⟨b, b, eb _, eb _, le_rfl⟩
    | _ => simp at hpq
  | ninf =>
    cases q with
    | nan => simp at hpq
    | pinf => exact ⟨a, b, ea _, eb _, ha' b hb⟩
    | ninf => exact ⟨a, a, ea _, ea _, le_rfl⟩
    | fin q => exact ⟨a, _, ea _, pmean_eval hx h0 hW q, L q⟩
  | fin p =>
    cases q with
    | nan => simp at hpq
    | pinf => exact ⟨_, b, pmean_eval hx h0 hW p, eb _, U p⟩
    | ninf => simp at hpq
    | fin q =>
      exact ⟨_, _, pmean_eval hx h0 hW p, pmean_eval hx h0 hW q, pm_mono G P (by simpa using hpq)⟩

/-- C22: the Lehmer mean of positive data is `sum(w*x**p)/sum(w*x**(p-1))` for every finite exponent
other than 1/2. -/
theorem lehmerMean_partial (hx : x ≠ []) (h0 : ∀ t ∈ x, 0 < t) (hW : GoodWeights x W) {p : ℝ}
    (hp : p ≠ 1 / 2) : lehmerMean (nums x) (fin p) (optNums W) =
      .ok (fin (wsum x W (fun t => t ^ p) / wsum x W (fun t => t ^ (p - 1)))) := by
  have h := (good_dat hx hW).2
  rw [lehmer_eval hx h0 hW hp, avg, avg, div_div_div_cancel_right₀ h.ne', wsum_eq _ hW,
    wsum_eq _ hW]

/-- C22: `lehmer_mean(x, p=0.5)` is the geometric mean. -/
theorem lehmerMean_half (x : List Num) (w : Option (List Num)) (h0 : ∀ t ∈ x, ¬ t ≤ 0) :
    lehmerMean x (fin (1 / 2)) w = gmean x w := by
  have h1 : ¬ ∃ t ∈ x, t ≤ fin 0 := by rintro ⟨t, ht, h⟩; exact h0 t ht h
  simp only [lehmerMean, zero_def, h1, if_false, fin_eq]
  norm_num

/-- C22 fails at `p = 1/2`: for `[1, 1, 4]` the code returns `4**(1/3)`, the Lehmer mean is 8/5. -/
theorem lehmerMean_half_wrong : ∃ v, lehmerMean (nums [1, 1, 4]) (fin (1 / 2)) none = .ok (fin v) ∧
    v ^ 3 = 4 ∧ v ≠ wsum [1, 1, 4] none (fun t => t ^ (1 / 2 : ℝ)) /
      wsum [1, 1, 4] none (fun t => t ^ (1 / 2 - 1 : ℝ)) := by
  have h0 : ∀ t ∈ ([1, 1, 4] : List ℝ), 0 < t := by
    intro t ht
    simp only [List.mem_cons, List.not_mem_nil, or_false] at ht
    rcases ht with rfl | rfl | rfl <;> norm_num
  have e := gmean_eval (W := none) (by simp) h0 (goodWeights_none _)
  refine ⟨Real.exp (avg (dat [1, 1, 4] none) Real.log), ?_, ?_, ?_⟩
  · rw [lehmerMean_half]
    · exact e
    · simp only [nums, List.mem_map]
      rintro _ ⟨t, ht, rfl⟩
      simpa using h0 t ht
  · rw [← Real.exp_nat_mul, avg_eq_wsum (goodWeights_none _)]
    have : ((3:ℕ):ℝ) * (wsum [1, 1, 4] none Real.log / wsum [1, 1, 4] none (fun _ => 1)) =
        Real.log 4 := by simp [wsum]; norm_num; ring
    rw [this, Real.exp_log (by norm_num)]
  · intro h
    have h3 := congrArg (· ^ 3) h
    rw [← Real.exp_nat_mul, avg_eq_wsum (goodWeights_none _)] at h3
    have : ((3:ℕ):ℝ) * (wsum [1, 1, 4] none Real.log / wsum [1, 1, 4] none (fun _ => 1)) =
        Real.log 4 := by simp [wsum]; norm_num; ring
    rw [this, Real.exp_log (by norm_num)] at h3
    have e1 : (4:ℝ) ^ (1 / 2 : ℝ) = 2 := by
      rw [← Real.sqrt_eq_rpow, show (4:ℝ) = 2 ^ 2 by norm_num]; exact Real.sqrt_sq (by norm_num)
    have e2 : (4:ℝ) ^ (1 / 2 - 1 : ℝ) = 1 / 2 := by
      rw [Real.rpow_sub (by norm_num), e1, Real.rpow_one]; norm_num
    simp only [wsum, List.map_cons, List.map_nil, List.sum_cons, List.sum_nil, e1, e2,
      Real.one_rpow] at h3
    norm_num at h3

/-- C22: nonpositive data raise ValueError. -/
theorem lehmerMean_raises (x : List Num) (p : Num) (w : Option (List Num)) (h : ∃ t ∈ x, t ≤ 0) :
    lehmerMean x p w = .error .valueError := by
  simp only [lehmerMean, h]; simp

/-- Non-vacuity: the data `[1, 2, 4]` with weights `[1, 0, 3]`, and what the means are there. -/
example : GoodWeights [1, 2, 4] (some [1, 0, 3]) ∧ (∀ t ∈ ([1, 2, 4] : List ℝ), 0 < t) ∧
    mean (nums [1, 2, 4]) (some (nums [1, 0, 3])) = .ok (fin (13 / 4)) ∧
    hmean (nums [1, 2, 4]) none = .ok (fin (12 / 7)) := by
  have h : GoodWeights [1, 2, 4] (some [1, 0, 3]) := by
    intro w hw
    obtain rfl : [1, 0, 3] = w := by simpa using hw
    norm_num
  refine ⟨h, by norm_num, ?_, ?_⟩
  · have := mean_value (x := [1, 2, 4]) (by simp) h
    simp only [optNums, Option.map_some] at this
    rw [this]; norm_num [wsum]
  · have := (gmean_hmean_value (x := [1, 2, 4]) (by simp) (by norm_num) (goodWeights_none _)).2
    simp only [optNums, Option.map_none] at this
    rw [this]; norm_num [wsum]

end Mpsci.stats
