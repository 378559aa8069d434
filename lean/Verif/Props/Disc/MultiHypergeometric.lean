import Verif.Lemmas.Disc.MultiHypergeometric
import Verif.Props.Fun.Log
import Verif.Spec.Discrete

/-! Properties of the multivariate hypergeometric distribution. -/

namespace Mpsci.multivariate_hypergeometric

open Classical Num Spec

/-- Admissible parameters: at least one colour, nonnegative colour counts, `nsample` items of the
`sum(colors)` items are drawn. -/
def Valid (colors : List ℤ) (nsample : ℤ) : Prop :=
  colors ≠ [] ∧ (∀ c ∈ colors, 0 ≤ c) ∧ 0 ≤ nsample ∧ nsample ≤ colors.sum

/-- The possible samples: as many entries as colours, `0 <= k_i <= colors_i`, `nsample` items in all. -/
def Supp (colors : List ℤ) (nsample : ℤ) : Set (List ℤ) :=
  {v | List.Forall₂ (fun k c => 0 ≤ k ∧ k ≤ c) v colors ∧ v.sum = nsample}

/-- Natural numbers as Python integers. -/
abbrev up (l : List ℕ) : List ℤ := l.map fun c : ℕ => (c:ℤ)

theorem up_sum (l : List ℕ) : (up l).sum = (l.sum : ℕ) := by rw [Nat.cast_list_sum]

theorem up_inj : Function.Injective up := by
  intro a b h
  have := congrArg (List.map Int.toNat) h
  simpa [List.map_map, Function.comp_def] using this

theorem up_toNat {l : List ℤ} (h : ∀ c ∈ l, 0 ≤ c) : up (l.map Int.toNat) = l := by
  rw [up, List.map_map]
  calc l.map _ = l.map id := List.map_congr_left fun c hc => by simp [h c hc]
    _ = l := List.map_id _

theorem of_valid {colors : List ℤ} {nsample : ℤ} (h : Valid colors nsample) :
    ∃ (cs : List ℕ) (n : ℕ), colors = up cs ∧ nsample = n ∧ cs ≠ [] ∧ n ≤ cs.sum := by
  obtain ⟨h1, h2, h3, h4⟩ := h
  have e := up_toNat h2
  refine ⟨colors.map Int.toNat, nsample.toNat, e.symm, by omega, by simpa using h1, ?_⟩
  have := up_sum (colors.map Int.toNat)
  rw [e] at this
  omega

variable {cs : List ℕ} {n : ℕ}

theorem validate_ok (hn : n ≤ cs.sum) : validate (up cs) n = .ok () := by
  have h1 : ¬ ∃ c ∈ up cs, c < 0 := by
    simp only [up, List.mem_map]
    rintro ⟨_, ⟨a, _, rfl⟩, h⟩
    omega
  rw [validate, if_neg h1, if_neg (by rw [up_sum]; omega)]

theorem support_nat (h : cs ≠ []) (hn : n ≤ cs.sum) :
    support (up cs) n = .ok ((suppN cs n).map up) := by
  rw [support, validate_ok hn, ok_bind, supportGen_nat cs h]

theorem mem_supp (h : cs ≠ []) (hn : n ≤ cs.sum) (v : List ℤ) :
    v ∈ (suppN cs n).map up ↔ v ∈ Supp (up cs) n := by
  simp only [List.mem_map, mem_suppN cs h n hn, Supp, Set.mem_setOf_eq]
  constructor
  · rintro ⟨w, ⟨h1, h2⟩, rfl⟩
    refine ⟨?_, by rw [up_sum, h1]⟩
    rw [up, up, List.forall₂_map_left_iff, List.forall₂_map_right_iff]
    exact h2.imp fun a b hab => by omega
  · rintro ⟨h1, h2⟩
    have h0 : ∀ c ∈ v, 0 ≤ c := by
      intro c hc
      obtain ⟨i, hi, rfl⟩ := List.mem_iff_getElem.1 hc
      have := (List.forall₂_iff_get.1 h1).2 i hi (by rw [← h1.length_eq]; exact hi)
      exact this.1
    have e := up_toNat h0
    refine ⟨v.map Int.toNat, ⟨?_, ?_⟩, e⟩
    · have := up_sum (v.map Int.toNat)
      rw [e] at this
      omega
    · rw [← e, up, up, List.forall₂_map_left_iff, List.forall₂_map_right_iff] at h1
      exact h1.imp fun a b hab => by omega

theorem nodup_supp : ((suppN cs n).map up).Nodup := (nodup_suppN cs n).map up_inj

theorem lognumer_nat : ∀ (cs v : List ℕ), List.Forall₂ (· ≤ ·) v cs → ∀ s : ℝ,
    lognumer (fin s) ((up cs).zip (up v)) = .ok (fin (s + Real.log (W cs v)))
  | [], [], _, s => by simp [lognumer, W]
  | [], _ :: _, h, _ => by cases h
  | _ :: _, [], h, _ => by cases h
  | c :: cs, k :: v, h, s => by
    rw [List.forall₂_cons] at h
    have e : W (c :: cs) (k :: v) = c.choose k * W cs v := by
      rw [W, List.length_cons, Finset.prod_range_succ', W, mul_comm]; simp
    have hw : (W cs v : ℝ) ≠ 0 := by
      rw [W, Nat.cast_prod, Finset.prod_ne_zero_iff]
      intro i hi
      have hi' := Finset.mem_range.1 hi
      have h3 := (List.forall₂_iff_get.1 h.2).2 i (by rw [h.2.length_eq]; exact hi') hi'
      have h4 : v.getD i 0 ≤ cs.getD i 0 := by
        simpa [List.getD_eq_getElem?_getD, hi', h.2.length_eq] using h3
      exact_mod_cast (Nat.choose_pos h4).ne'
    have hc : (c.choose k : ℝ) ≠ 0 := by exact_mod_cast (Nat.choose_pos h.1).ne'
    have l := fun_.logbinomial_eq h.1
    rw [up, up, List.map_cons, List.map_cons, List.zip_cons_cons, lognumer]
    simp only [ofInt, Int.cast_natCast, l, ok_bind, fin_add]
    have := lognumer_nat cs v h.2 (s + Real.log (c.choose k))
    rw [this, e, Nat.cast_mul, Real.log_mul hc hw, add_assoc]

/-- The probability of the sample `v`. -/
noncomputable def p (cs : List ℕ) (n : ℕ) (v : List ℕ) : ℝ := (W cs v : ℝ) / cs.sum.choose n

theorem W_pos {v : List ℕ} (h : List.Forall₂ (· ≤ ·) v cs) : 0 < W cs v := by
  refine Finset.prod_pos fun i hi => Nat.choose_pos ?_
  have hi' := Finset.mem_range.1 hi
  have h3 := (List.forall₂_iff_get.1 h).2 i (by rw [h.length_eq]; exact hi') hi'
  simpa [List.getD_eq_getElem?_getD, hi', h.length_eq] using h3

theorem p_pos (hn : n ≤ cs.sum) {v : List ℕ} (h : List.Forall₂ (· ≤ ·) v cs) : 0 < p cs n v :=
  div_pos (by exact_mod_cast W_pos h) (by exact_mod_cast Nat.choose_pos hn)

theorem logpmf_nat (hn : n ≤ cs.sum) {v : List ℕ} (h : List.Forall₂ (· ≤ ·) v cs) :
    logpmf (up v) (up cs) n = .ok (fin (Real.log (p cs n v))) := by
  have l := fun_.logbinomial_eq hn
  have h1 : (W cs v : ℝ) ≠ 0 := by exact_mod_cast (W_pos h).ne'
  have h2 : (cs.sum.choose n : ℝ) ≠ 0 := by exact_mod_cast (Nat.choose_pos hn).ne'
  simp only [logpmf, validate_ok hn, ok_bind, up_sum, ofInt, Int.cast_natCast, l, zero_def,
    lognumer_nat cs v h, fin_sub, pure_eq_ok, zero_add, p, Real.log_div h1 h2]

theorem pmf_nat (hn : n ≤ cs.sum) {v : List ℕ} (h : List.Forall₂ (· ≤ ·) v cs) :
    pmf (up v) (up cs) n = .ok (fin (p cs n v)) := by
  rw [pmf, logpmf_nat hn h, ok_bind, pure_eq_ok, mp.exp_fin, Real.exp_log (p_pos hn h)]

/-- The masses as a function of integer vectors. -/
noncomputable def pz (cs : List ℕ) (n : ℕ) (v : List ℤ) : ℝ := p cs n (v.map Int.toNat)

theorem pz_up (v : List ℕ) : pz cs n (up v) = p cs n v := by
  simp [pz, up, List.map_map, Function.comp_def]

theorem vecMass (h : cs ≠ []) (hn : n ≤ cs.sum) : VecMass (Supp (up cs) n) (support (up cs) n)
    (fun v => pmf v (up cs) n) ((suppN cs n).map up) (pz cs n) := by
  refine ⟨support_nat h hn, nodup_supp, mem_supp h hn, ?_⟩
  intro v hv
  obtain ⟨w, hw, rfl⟩ := List.mem_map.1 hv
  rw [pz_up]
  exact pmf_nat hn ((mem_suppN cs h n hn w).1 hw).2

theorem expect_nat (g : List ℤ → ℝ) : expect ((suppN cs n).map up) (pz cs n) g * cs.sum.choose n =
    if (cs.sum.choose n : ℝ) = 0 then 0 else ((suppN cs n).map fun v => g (up v) * (W cs v : ℝ)).sum := by
  by_cases h0 : (cs.sum.choose n : ℝ) = 0
  · rw [if_pos h0, h0, mul_zero]
  · rw [if_neg h0, expect, ← List.sum_map_mul_right, List.map_map]
    congr 1
    refine List.map_congr_left fun v _ => ?_
    simp only [Function.comp, pz_up, p]
    field_simp

variable {colors : List ℤ} {nsample : ℤ}

/-- C38 `support` yields each possible sample exactly once and nothing else. -/
theorem support_spec (h : Valid colors nsample) :
    ∃ l, support colors nsample = .ok l ∧ l.Nodup ∧ ∀ v, v ∈ l ↔ v ∈ Supp colors nsample := by
  obtain ⟨cs, n, rfl, rfl, h1, hn⟩ := of_valid h
  exact ⟨_, (vecMass h1 hn).1, (vecMass h1 hn).2.1, (vecMass h1 hn).2.2.1⟩

example : Valid [3, 2, 4] 5 := by simp [Valid]
example : [1, 2, 2] ∈ Supp [3, 2, 4] 5 := by simp [Supp]

/-- C38 `pmf` is positive on the support and sums to 1 over it. -/
theorem isPmf (h : Valid colors nsample) : ∃ l p,
    VecMass (Supp colors nsample) (support colors nsample) (fun v => pmf v colors nsample) l p ∧
      (∀ v ∈ l, 0 < p v) ∧ expect l p (fun _ => 1) = 1 := by
  obtain ⟨cs, n, rfl, rfl, h1, hn⟩ := of_valid h
  refine ⟨_, _, vecMass h1 hn, ?_, ?_⟩
  · intro v hv
    obtain ⟨w, hw, rfl⟩ := List.mem_map.1 hv
    rw [pz_up]
    exact p_pos hn ((mem_suppN cs h1 n hn w).1 hw).2
  · have h2 : (cs.sum.choose n : ℝ) ≠ 0 := by exact_mod_cast (Nat.choose_pos hn).ne'
    have := expect_nat (cs := cs) (n := n) fun _ => 1
    rw [if_neg h2] at this
    simp only [one_mul, W_sum h1 hn] at this
    exact mul_right_cancel₀ h2 (by rw [this, one_mul])

/-- C38 `pmf` of a possible sample is the product of the binomial coefficients `binom(colors_i, k_i)`
divided by `binom(sum(colors), nsample)`. -/
theorem pmf_counts (h : Valid colors nsample) {v : List ℤ} (hv : v ∈ Supp colors nsample) :
    pmf v colors nsample = .ok (fin
      ((∏ i ∈ Finset.range colors.length,
        ((colors.getD i 0).toNat.choose (v.getD i 0).toNat : ℝ)) /
        colors.sum.toNat.choose nsample.toNat)) := by
  obtain ⟨cs, n, rfl, rfl, h1, hn⟩ := of_valid h
  obtain ⟨w, hw, rfl⟩ := List.mem_map.1 ((mem_supp h1 hn v).2 hv)
  rw [pmf_nat hn ((mem_suppN cs h1 n hn w).1 hw).2, p, up_sum, W]
  have e : ∀ (l : List ℕ) (i : ℕ), ((up l).getD i 0).toNat = l.getD i 0 := by
    intro l i
    simp only [up, List.getD_eq_getElem?_getD, List.getElem?_map]
    cases l[i]? <;> simp
  simp only [e, Int.toNat_natCast, up, List.length_map, Nat.cast_prod]

/-- C38 `logpmf` is the logarithm of `pmf` on the support. -/
theorem isLogPmf (h : Valid colors nsample) {v : List ℤ} (hv : v ∈ Supp colors nsample) :
    ∃ r : ℝ, 0 < r ∧ pmf v colors nsample = .ok (fin r) ∧
      logpmf v colors nsample = .ok (fin (Real.log r)) := by
  obtain ⟨cs, n, rfl, rfl, h1, hn⟩ := of_valid h
  obtain ⟨w, hw, rfl⟩ := List.mem_map.1 ((mem_supp h1 hn v).2 hv)
  have := ((mem_suppN cs h1 n hn w).1 hw).2
  exact ⟨_, p_pos hn this, pmf_nat hn this, logpmf_nat hn this⟩

theorem getD_up (l : List ℕ) (i : ℕ) : (((up l).getD i 0 : ℤ) : ℝ) = (l.getD i 0 : ℕ) := by
  simp only [up, List.getD_eq_getElem?_getD, List.getElem?_map]
  cases l[i]? <;> simp

theorem expect_mean (h1 : cs ≠ []) (hn : n ≤ cs.sum) {i : ℕ} (hi : i < cs.length) :
    expect ((suppN cs n).map up) (pz cs n) (fun v => (v.getD i 0 : ℝ)) * cs.sum =
      n * cs.getD i 0 := by
  have h2 : (cs.sum.choose n : ℝ) ≠ 0 := by exact_mod_cast (Nat.choose_pos hn).ne'
  have e := expect_nat (cs := cs) (n := n) fun v => (v.getD i 0 : ℝ)
  rw [if_neg h2] at e
  simp only [getD_up] at e
  have f := W_mean h1 hn hi
  refine mul_right_cancel₀ h2 ?_
  rw [mul_right_comm, e, f]

/-- What `mean` returns, as real numbers. -/
noncomputable def meanR (cs : List ℕ) (n : ℕ) : List ℝ :=
  cs.map fun c : ℕ => if n = cs.sum then (c:ℝ) else n * (c / cs.sum)

theorem mean_nat (hn : n ≤ cs.sum) : mean (up cs) n = .ok ((meanR cs n).map fin) := by
  simp only [mean, validate_ok hn, ok_bind, up_sum]
  by_cases h : n = cs.sum
  · rw [if_pos (by rw [h])]
    simp [meanR, h, up, List.map_map, Function.comp_def, one_def, ofInt]
  · rw [if_neg (by exact_mod_cast h)]
    have hp : ((cs.sum : ℕ) : ℝ) ≠ 0 := by
      have : 0 < cs.sum := by omega
      exact_mod_cast this.ne'
    rw [up, List.mapM_map, mapM_ok (g := fun c : ℕ => fin (n * ((c:ℝ) / cs.sum)))]
    · simp [meanR, h, List.map_map, Function.comp_def]
    · intro c _
      simp only [Function.comp, ofInt, Int.cast_natCast, fin_div _ hp, ok_bind, fin_mul, pure_eq_ok]

theorem meanR_getD (hn : n ≤ cs.sum) {i : ℕ} (hi : i < cs.length) :
    (meanR cs n).getD i 0 * cs.sum = n * cs.getD i 0 := by
  have e : (meanR cs n).getD i 0 = if n = cs.sum then (cs.getD i 0 : ℝ) else n * (cs.getD i 0 / cs.sum) := by
    simp [meanR, hi]
  rw [e]
  by_cases h : n = cs.sum
  · rw [if_pos h, h, mul_comm]
  · rw [if_neg h]
    have hp : ((cs.sum : ℕ) : ℝ) ≠ 0 := by
      have : 0 < cs.sum := by omega
      exact_mod_cast this.ne'
    field_simp

theorem getD_zero (h : cs.sum = 0) (i : ℕ) : cs.getD i 0 = 0 := by
  by_cases hi : i < cs.length
  · have h2 : cs.getD i 0 = cs[i] := by simp [hi]
    rw [h2]; exact List.sum_eq_zero_iff.1 h _ (List.getElem_mem hi)
  · simp [hi]

theorem mean_eq (h1 : cs ≠ []) (hn : n ≤ cs.sum) {i : ℕ} (hi : i < cs.length) :
    (meanR cs n).getD i 0 = expect ((suppN cs n).map up) (pz cs n) (fun v => (v.getD i 0 : ℝ)) := by
  rcases Nat.eq_zero_or_pos cs.sum with h0 | h0
  · have h2 : (cs.sum.choose n : ℝ) ≠ 0 := by exact_mod_cast (Nat.choose_pos hn).ne'
    have e := expect_nat (cs := cs) (n := n) fun v => (v.getD i 0 : ℝ)
    rw [if_neg h2] at e
    have z : ((suppN cs n).map fun v => (((up v).getD i 0 : ℤ) : ℝ) * (W cs v : ℝ)).sum = 0 := by
      refine List.sum_eq_zero ?_
      simp only [List.mem_map]
      rintro _ ⟨v, hv, rfl⟩
      have hv' := ((mem_suppN cs h1 n hn v).1 hv).1
      rw [getD_up, getD_zero (by omega), Nat.cast_zero, zero_mul]
    rw [z] at e
    rw [(mul_eq_zero.1 e).resolve_right h2]
    simp [meanR, hi, show n = cs.sum by omega]
    have := getD_zero h0 i
    simpa [hi] using this
  · have hp : ((cs.sum : ℕ) : ℝ) ≠ 0 := by exact_mod_cast h0.ne'
    exact mul_right_cancel₀ hp (by rw [meanR_getD hn hi, expect_mean h1 hn hi])

/-- C38 the entries of `mean` are the expected values of the entries of the sample. -/
theorem isMean (h : Valid colors nsample) : ∃ l p, ∃ m : List ℝ,
    VecMass (Supp colors nsample) (support colors nsample) (fun v => pmf v colors nsample) l p ∧
      mean colors nsample = .ok (m.map fin) ∧ m.length = colors.length ∧
      ∀ i < colors.length, m.getD i 0 = expect l p fun v => (v.getD i 0 : ℝ) := by
  obtain ⟨cs, n, rfl, rfl, h1, hn⟩ := of_valid h
  refine ⟨_, _, _, vecMass h1 hn, mean_nat hn, by simp [meanR], ?_⟩
  intro i hi
  exact mean_eq h1 hn (by simpa using hi)

/-- The covariances as real numbers. -/
noncomputable def covR (cs : List ℕ) (n : ℕ) (i j : ℕ) : ℝ :=
  if n = cs.sum then 0
  else
    let f : ℝ := n * (cs.sum - n) / (cs.sum - 1)
    let u : ℕ → ℝ := fun i => cs.getD i 0 / cs.sum
    if i = j then f * u i * (1 - u i) else -f * u i * u j

theorem cov_nat (hn : n ≤ cs.sum) (hT : cs.sum ≠ 1 ∨ n = 1) : cov (up cs) n =
    .ok ((List.range cs.length).map fun i => (List.range cs.length).map fun j => fin (covR cs n i j)) := by
  simp only [cov, validate_ok hn, ok_bind, up_sum]
  by_cases h : n = cs.sum
  · rw [if_pos (by rw [h])]
    simp [covR, h, up, List.map_const', zero_def]
  · rw [if_neg (by exact_mod_cast h)]
    have hp : ((cs.sum : ℕ) : ℝ) ≠ 0 := by
      have : 0 < cs.sum := by omega
      exact_mod_cast this.ne'
    have h1 : ((cs.sum : ℕ) : ℝ) - 1 ≠ 0 := by
      rw [sub_ne_zero]
      have : cs.sum ≠ 1 := by omega
      exact_mod_cast this
    rw [up, List.mapM_map, mapM_ok (g := fun c : ℕ => fin ((c:ℝ) / cs.sum))]
    · simp only [ok_bind, ofInt, Int.cast_natCast, fin_sub, fin_mul, one_def, fin_div _ h1, List.length_map,
        pure_eq_ok]
      congr 1
      refine List.map_congr_left fun i hi => List.map_congr_left fun j hj => ?_
      rw [List.mem_range] at hi hj
      have e : ∀ i < cs.length, (cs.map fun c : ℕ => fin ((c:ℝ) / cs.sum)).getD i nan =
          fin ((cs.getD i 0 : ℝ) / cs.sum) := fun i hi => by simp [hi]
      rw [e i hi, e j hj]
      simp only [covR, if_neg h, neg_fin, fin_mul, fin_sub]
      split_ifs <;> rfl
    · intro c _
      simp only [Function.comp, ofInt, Int.cast_natCast, fin_div _ hp]

theorem expect_add (l : List (List ℤ)) (p g h) :
    expect l p (fun v => g v + h v) = expect l p g + expect l p h := by
  simp only [expect, add_mul, List.sum_map_add]
theorem expect_smul (l : List (List ℤ)) (p g) (a : ℝ) :
    expect l p (fun v => a * g v) = a * expect l p g := by
  simp only [expect, mul_assoc, List.sum_map_mul_left]

theorem cov_expand {l : List (List ℤ)} {p : List ℤ → ℝ} (h : expect l p (fun _ => 1) = 1)
    (g k : List ℤ → ℝ) : expect l p (fun v => (g v - expect l p g) * (k v - expect l p k)) =
      expect l p (fun v => g v * k v) - expect l p g * expect l p k := by
  have : (fun v => (g v - expect l p g) * (k v - expect l p k)) = fun v => g v * k v +
      ((-expect l p k) * g v + ((-expect l p g) * k v + (expect l p g * expect l p k) * 1)) := by
    funext v; ring
  rw [this, expect_add, expect_add, expect_add, expect_smul, expect_smul, expect_smul, h]
  ring

theorem cov_eq (h1 : cs ≠ []) (hn : n ≤ cs.sum) (hT : 2 ≤ cs.sum) {i j : ℕ} (hi : i < cs.length)
    (hj : j < cs.length) : covR cs n i j =
      expect ((suppN cs n).map up) (pz cs n) (fun v => (v.getD i 0 : ℝ) * (v.getD j 0 : ℝ)) -
      expect ((suppN cs n).map up) (pz cs n) (fun v => (v.getD i 0 : ℝ)) *
      expect ((suppN cs n).map up) (pz cs n) (fun v => (v.getD j 0 : ℝ)) := by
  have h2 : (cs.sum.choose n : ℝ) ≠ 0 := by exact_mod_cast (Nat.choose_pos hn).ne'
  have hT' : (2:ℝ) ≤ cs.sum := by exact_mod_cast hT
  have hp : ((cs.sum : ℕ) : ℝ) ≠ 0 := by linarith
  have hp1 : ((cs.sum : ℕ) : ℝ) - 1 ≠ 0 := by
    intro h; linarith
  have mi := expect_mean h1 hn hi
  have mj := expect_mean h1 hn hj
  rw [← eq_div_iff hp] at mi mj
  rw [mi, mj]
  by_cases hij : i = j
  · subst hij
    have e := expect_nat (cs := cs) (n := n) fun v => (v.getD i 0 : ℝ) * ((v.getD i 0 : ℝ) - 1)
    rw [if_neg h2] at e
    simp only [getD_up] at e
    have f := W_second h1 hn hT hi
    rw [← e, mul_right_comm] at f
    have g := mul_right_cancel₀ h2 f
    rw [← eq_div_iff (mul_ne_zero hp hp1)] at g
    have : (fun v : List ℤ => (v.getD i 0 : ℝ) * (v.getD i 0 : ℝ)) =
        fun v => (v.getD i 0 : ℝ) * ((v.getD i 0 : ℝ) - 1) + (v.getD i 0 : ℝ) := by funext v; ring
    rw [this, expect_add, g, mi]
    simp only [covR, if_true]
    split_ifs with h
    · rw [h]; field_simp; ring
    · field_simp; ring
  · have e := expect_nat (cs := cs) (n := n) fun v => (v.getD i 0 : ℝ) * (v.getD j 0 : ℝ)
    rw [if_neg h2] at e
    simp only [getD_up] at e
    have f := W_mixed h1 hn hT hi hj hij
    rw [← e, mul_right_comm] at f
    have g := mul_right_cancel₀ h2 f
    rw [← eq_div_iff (mul_ne_zero hp hp1)] at g
    rw [g]
    simp only [covR, if_neg hij]
    split_ifs with h
    · rw [h]; field_simp; ring
    · field_simp; ring

/-- C38 the entries of `cov` are the covariances of the entries of the sample, for at least two items. -/
theorem isCov (h : Valid colors nsample) (hT : 2 ≤ colors.sum) : ∃ l p, ∃ m : List ℝ, ∃ c : ℕ → ℕ → ℝ,
    VecMass (Supp colors nsample) (support colors nsample) (fun v => pmf v colors nsample) l p ∧
      mean colors nsample = .ok (m.map fin) ∧
      cov colors nsample = .ok ((List.range colors.length).map fun i =>
        (List.range colors.length).map fun j => fin (c i j)) ∧
      ∀ i < colors.length, ∀ j < colors.length, c i j =
        expect l p fun v => ((v.getD i 0 : ℝ) - m.getD i 0) * ((v.getD j 0 : ℝ) - m.getD j 0) := by
  obtain ⟨l, p, hv, _, h3⟩ := isPmf h
  obtain ⟨cs, n, rfl, rfl, h1, hn⟩ := of_valid h
  have hT' : 2 ≤ cs.sum := by rw [up_sum] at hT; omega
  refine ⟨_, _, meanR cs n, covR cs n, vecMass h1 hn, mean_nat hn, ?_, ?_⟩
  · rw [cov_nat hn (by omega)]; simp
  · intro i hi j hj
    rw [List.length_map] at hi hj
    rw [mean_eq h1 hn hi, mean_eq h1 hn hj, cov_expand, cov_eq h1 hn hT' hi hj]
    have h2 : (cs.sum.choose n : ℝ) ≠ 0 := by exact_mod_cast (Nat.choose_pos hn).ne'
    have := expect_nat (cs := cs) (n := n) fun _ => 1
    rw [if_neg h2] at this
    simp only [one_mul, W_sum h1 hn] at this
    exact mul_right_cancel₀ h2 (by rw [this, one_mul])

example : (2:ℤ) ≤ ([3, 2, 4] : List ℤ).sum := by simp

/-- C38 `entropy` is the expected value of `-log(pmf)`. -/
theorem isEntropy (h : Valid colors nsample) : ∃ l p, ∃ e : ℝ,
    VecMass (Supp colors nsample) (support colors nsample) (fun v => pmf v colors nsample) l p ∧
      entropy colors nsample = .ok (fin e) ∧ e = expect l p fun v => -Real.log (p v) := by
  obtain ⟨cs, n, rfl, rfl, h1, hn⟩ := of_valid h
  refine ⟨_, _, _, vecMass h1 hn, ?_, rfl⟩
  simp only [entropy, validate_ok hn, ok_bind]
  rw [supportGen_nat cs h1, ok_bind, mapM_ok (g := fun v => fin (pz cs n v * Real.log (pz cs n v)))]
  · rw [ok_bind, mp.fsum_map_fin, neg_fin, pure_eq_ok, expect]
    congr 2
    rw [← neg_one_mul, ← List.sum_map_mul_left]
    congr 1
    refine List.map_congr_left fun v _ => ?_
    ring
  · intro v hv
    obtain ⟨w, hw, rfl⟩ := List.mem_map.1 hv
    have := ((mem_suppN cs h1 n hn w).1 hw).2
    have e := logpmf_nat hn this
    rw [show logpmf (w.map fun c : ℕ => (c:ℤ)) (cs.map fun c : ℕ => (c:ℤ)) n = _ from e, ok_bind, pure_eq_ok,
      mp.exp_fin, fin_mul, Real.exp_log (p_pos hn this)]
    rw [show pz cs n (w.map fun c : ℕ => (c:ℤ)) = _ from pz_up w]

/-- C38 a negative colour count or a sample larger than the population is rejected. -/
theorem rejects (h : (∃ c ∈ colors, c < 0) ∨ colors.sum < nsample) (v : List ℤ) :
    support colors nsample = .error .valueError ∧ pmf v colors nsample = .error .valueError ∧
      logpmf v colors nsample = .error .valueError ∧ mean colors nsample = .error .valueError ∧
      cov colors nsample = .error .valueError ∧ entropy colors nsample = .error .valueError := by
  have : validate colors nsample = .error .valueError := by
    by_cases h1 : ∃ c ∈ colors, c < 0
    · rw [validate, if_pos h1]
    · rw [validate, if_neg h1, if_pos (h.resolve_left h1)]
  simp [support, pmf, logpmf, mean, cov, entropy, this]

example : ∃ c ∈ ([3, -1] : List ℤ), c < 0 := ⟨-1, by simp, by norm_num⟩

/-- C38 fails: `pmf` does not compare the total of the sample with `nsample`, so it is not 0 off the
support: `pmf((0, 0), (1, 1), 1) = 1/2`. -/
theorem pmf_fails : ([0, 0] : List ℤ) ∉ Supp [1, 1] 1 ∧ pmf [0, 0] [1, 1] 1 = .ok (fin (1 / 2)) := by
  refine ⟨by simp [Supp], ?_⟩
  have := pmf_nat (cs := [1, 1]) (n := 1) (by simp) (v := [0, 0]) (by simp)
  simp only [up, List.map_cons, List.map_nil, Nat.cast_one, Nat.cast_zero] at this
  rw [this]
  simp [p, W, Finset.prod_range_succ]

/-- C38 fails: `pmf` raises ValueError when an entry of the sample exceeds the colour count. -/
theorem pmf_raises : pmf [2, 0] [1, 1] 1 = .error .valueError := by
  have v := validate_ok (cs := [1, 1]) (n := 1) (by simp)
  have l1 := fun_.logbinomial_eq (n := 2) (k := 1) (by norm_num)
  have l2 := (fun_.logbinomial_raises 1 2).2 (by norm_num)
  simp only [up, List.map_cons, List.map_nil, Nat.cast_one] at v
  simp only [Nat.cast_ofNat, Nat.cast_one] at l1
  simp only [pmf, logpmf, v, ok_bind]
  simp only [List.sum_cons, List.sum_nil, ofInt, add_zero]
  norm_num [l1, lognumer, l2, ofInt]

/-- C38 fails for the empty list of colours: the support is not `[[]]`, the generator raises IndexError. -/
theorem support_empty : Supp [] 0 = {[]} ∧ support [] 0 = .error .indexError := by
  constructor
  · ext v; simp [Supp]; rintro rfl; simp
  · simp [support, validate, supportGen]

/-- C38 fails for one colour and a negative sample: no vector is possible but `[nsample]` is yielded. -/
theorem support_neg : Supp [2] (-1) = ∅ ∧ support [2] (-1) = .ok [[-1]] := by
  constructor
  · ext v
    simp only [Supp, Set.mem_setOf_eq, Set.mem_empty_iff_false, iff_false, not_and]
    intro h
    rcases v with _ | ⟨a, v⟩
    · cases h
    · rw [List.forall₂_cons] at h
      obtain rfl : v = [] := by simpa using h.2
      simp; omega
  · simp [support, validate, supportGen]

/-- C38 fails for one item of which none is drawn: the covariance matrix is zero, `cov` divides by zero. -/
theorem cov_one : Valid [1] 0 ∧ cov [1] 0 = .error .zeroDivision := by
  refine ⟨by simp [Valid], ?_⟩
  have v := validate_ok (cs := [1]) (n := 0) (by simp)
  simp only [up, List.map_cons, List.map_nil, Nat.cast_one, Nat.cast_zero] at v
  simp [cov, v, ofInt, one_def, fin_div (1:ℝ) one_ne_zero]

end Mpsci.multivariate_hypergeometric
