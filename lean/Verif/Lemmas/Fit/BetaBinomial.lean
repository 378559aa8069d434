import Verif.Lemmas.Fit.Binomial
import Verif.Model.Fit.BetaBinomial
import Verif.Props.Disc.BetaBinomial

/-! The likelihood of the beta-binomial distribution. -/

namespace Mpsci.betabinomial

open Classical Num Spec common Finset

variable {n : ℕ} {a b : ℝ} {ks : List ℤ} {c : Option (List ℕ)}

noncomputable def l (n : ℕ) (a b : ℝ) (k : ℤ) : ℝ := Real.log (W n a b k.toNat)

theorem logpmf_l (ha : 0 < a) (hb : 0 < b) {k : ℤ} (hk : 0 ≤ k ∧ k ≤ n) : logpmf k n (fin a) (fin b) = .ok (fin (l n a b k)) := by
  obtain ⟨j, rfl⟩ := Int.eq_ofNat_of_zero_le hk.1
  exact logpmf_eval ha hb (by exact_mod_cast hk.2)

theorem nll_eval (ha : 0 < a) (hb : 0 < b) (hk : ∀ k ∈ ks, 0 ≤ k ∧ k ≤ n) (hc : Matching ks c) :
    nll (ints ks) n (fin a) (fin b) (counts c) = .ok (fin (-((meant ks c).map (l n a b)).sum)) := by
  have h2 := nllCounts_meant (lp := (logpmf · n (fin a) (fin b))) (fun k hm => logpmf_l ha hb (hk k hm)) hc
  simp only [nll, validate_ok n ha hb, ok_bind, zero_def, binomial.bounds hk, if_neg (not_not.2 (binomial.allInt ks))]
  exact h2

/-- The sum of a function over data with counts. -/
theorem sumCounts_eval {g : Num → M Num} {φ : ℤ → ℝ} {ks : List ℤ} (hg : ∀ k ∈ ks, g (ofInt k) = .ok (fin (φ k)))
    (c : List ℕ) : sumCounts g (ints ks) (some (c.map fun n : ℕ => ofInt n)) = .ok (fin ((replicated ks c).map φ).sum) := by
  have h : ∀ (ks : List ℤ) (c : List ℕ), (∀ k ∈ ks, g (ofInt k) = .ok (fin (φ k))) →
      ((ints ks).zip (c.map fun n : ℕ => ofInt n)).mapM (fun tc : Num × Num => do return tc.2 * (← g tc.1)) =
      .ok ((List.zipWith (fun k (n : ℕ) => (n:ℝ) * φ k) ks c).map fin) := by
    intro ks
    induction ks with
    | nil => intro c _; simp [ints]
    | cons k ks ih =>
      intro c hl
      cases c with
      | nil => simp [ints]
      | cons n c =>
        have h1 := ih c fun k hk => hl k (by simp [hk])
        simp only [ints, pure_eq_ok, ofInt_natCast] at h1
        simp only [ints, List.map_cons, List.zip_cons_cons, List.mapM_cons, h1, hl k (by simp), ok_bind, ofInt_natCast,
          fin_mul, pure_eq_ok, List.zipWith_cons_cons]
  rw [sumCounts, Option.getD_some, h ks c hg, ok_bind, mp.fsum_fin, pure_eq_ok, sum_replicated]

/-- The counts after validation. -/
noncomputable def vcounts (ks : List ℤ) : Option (List ℕ) → Option (List Num)
  | none => some ((List.replicate ks.length 1).map fun n : ℕ => ofInt n)
  | some c => some (c.map fun n : ℕ => ofInt n)

theorem validate_vcounts (hc : Matching ks c) : validateCounts (ints ks) (counts c) true = .ok (vcounts ks c) := by
  cases c with
  | none => simp [validateCounts, counts, vcounts, ints, ofInt_def, one_def]
  | some c => exact validateCounts_some (by rw [hc c rfl]; simp [ints]) _

theorem sumCounts_meant {g : Num → M Num} {φ : ℤ → ℝ} (hg : ∀ k ∈ ks, g (ofInt k) = .ok (fin (φ k))) (c : Option (List ℕ)) :
    sumCounts g (ints ks) (vcounts ks c) = .ok (fin ((meant ks c).map φ).sum) := by
  cases c with
  | none => rw [vcounts, sumCounts_eval hg, replicated_ones]; rfl
  | some c => exact sumCounts_eval hg c

/-- The derivative of the log-likelihood of one value with respect to `a`. -/
noncomputable def D (n : ℕ) (b : ℝ) (k : ℤ) (a : ℝ) : ℝ := psi (k + a) + (-psi a + psi (a + b) - psi (n + a + b))

theorem eqnA_eval (ha : 0 < a) (hb : 0 < b) (hk : ∀ k ∈ ks, 0 ≤ k ∧ k ≤ n) (c : Option (List ℕ)) :
    eqnA (ints ks) (vcounts ks c) n (fin b) (fin a) = .ok (fin ((meant ks c).map (D n b · a)).sum) := by
  have h1 : 0 < a + b := by positivity
  have h2 : 0 < (n:ℝ) + a + b := by positivity
  simp only [eqnA, mp.digamma_pos ha, ok_bind, fin_add, mp.digamma_pos h1, ofInt_def, Int.cast_natCast, mp.digamma_pos h2, neg_fin, fin_sub]
  refine sumCounts_meant (fun k hm => ?_) c
  have h3 : 0 < (k:ℝ) + a := by
    have : (0:ℝ) ≤ k := by exact_mod_cast (hk k hm).1
    linarith
  simp only [ofInt_def, fin_add, mp.digamma_pos h3, ok_bind, pure_eq_ok]
  rfl

theorem eqnB_eval (ha : 0 < a) (hb : 0 < b) (hk : ∀ k ∈ ks, 0 ≤ k ∧ k ≤ n) (c : Option (List ℕ)) :
    eqnB (ints ks) (vcounts ks c) n (fin a) (fin b) = .ok (fin ((meant ks c).map fun k => D n a (n - k) b).sum) := by
  have h1 : 0 < a + b := by positivity
  have h2 : 0 < (n:ℝ) + a + b := by positivity
  simp only [eqnB, mp.digamma_pos hb, ok_bind, fin_add, mp.digamma_pos h1, ofInt_def, Int.cast_natCast, mp.digamma_pos h2, neg_fin, fin_sub]
  refine sumCounts_meant (fun k hm => ?_) c
  have h3 : 0 < (n:ℝ) - k + b := by
    have : (k:ℝ) ≤ n := by exact_mod_cast (hk k hm).2
    linarith
  simp only [ofInt_def, fin_sub, fin_add, mp.digamma_pos h3, ok_bind, pure_eq_ok, D]
  push_cast
  rw [show b + a = a + b by ring, show (n:ℝ) + b + a = n + a + b by ring]

theorem eqns_eval (ha : 0 < a) (hb : 0 < b) (hk : ∀ k ∈ ks, 0 ≤ k ∧ k ≤ n) (c : Option (List ℕ)) :
    eqns (ints ks) (vcounts ks c) n (fin a) (fin b) = .ok (fin ((meant ks c).map (D n b · a)).sum, fin ((meant ks c).map fun k => D n a (n - k) b).sum) := by
  have h1 : 0 < a + b := by positivity
  have h2 : 0 < (n:ℝ) + a + b := by positivity
  simp only [eqns, mp.digamma_pos ha, mp.digamma_pos hb, ok_bind, fin_add, mp.digamma_pos h1, ofInt_def, Int.cast_natCast, mp.digamma_pos h2, fin_sub]
  have e1 : sumCounts (fun t => do return (← mp.digamma (t + fin a)) + fin (psi (a + b) - psi (n + a + b) - psi a)) (ints ks) (vcounts ks c) =
      .ok (fin ((meant ks c).map (D n b · a)).sum) := by
    refine sumCounts_meant (fun k hm => ?_) c
    have h3 : 0 < (k:ℝ) + a := by
      have : (0:ℝ) ≤ k := by exact_mod_cast (hk k hm).1
      linarith
    simp only [ofInt_def, fin_add, mp.digamma_pos h3, ok_bind, pure_eq_ok, D]
    congr 2; ring
  have e2 : sumCounts (fun t => do return (← mp.digamma (fin n - t + fin b)) + fin (psi (a + b) - psi (n + a + b) - psi b)) (ints ks) (vcounts ks c) =
      .ok (fin ((meant ks c).map fun k => D n a (n - k) b).sum) := by
    refine sumCounts_meant (fun k hm => ?_) c
    have h3 : 0 < (n:ℝ) - k + b := by
      have : (k:ℝ) ≤ n := by exact_mod_cast (hk k hm).2
      linarith
    simp only [ofInt_def, fin_sub, fin_add, mp.digamma_pos h3, ok_bind, pure_eq_ok, D]
    push_cast
    rw [show b + a = a + b by ring, show (n:ℝ) + b + a = n + a + b by ring]
    congr 2; ring
  rw [e1, e2]; rfl

/-- The derivative of the log-likelihood of one value. -/
theorem hasDerivAt_l (ha : 0 < a) (hb : 0 < b) {k : ℤ} (hk : 0 ≤ k ∧ k ≤ n) : HasDerivAt (fun a => l n a b k) (D n b k a) a := by
  obtain ⟨j, rfl⟩ := Int.eq_ofNat_of_zero_le hk.1
  have hj : j ≤ n := by exact_mod_cast hk.2
  have e : ∀ᶠ t in nhds a, l n t b j = Real.log (n.choose j) + Real.log (Real.Gamma ((n - j : ℕ) + b)) - Real.log (Real.Gamma b) +
      (Real.log (Real.Gamma (j + t)) - Real.log (Real.Gamma (n + t + b)) - Real.log (Real.Gamma t) + Real.log (Real.Gamma (t + b))) := by
    filter_upwards [lt_mem_nhds ha] with t ht
    have p : (0:ℝ) < n.choose j := by exact_mod_cast Nat.choose_pos hj
    have q1 : 0 < (j:ℝ) + t := by positivity
    have q2 : 0 < ((n - j : ℕ):ℝ) + b := by positivity
    have q3 : 0 < (n:ℝ) + t + b := by positivity
    have p1 := (Real.Gamma_pos_of_pos q1).ne'
    have p2 := (Real.Gamma_pos_of_pos q2).ne'
    have p3 := (Real.Gamma_pos_of_pos q3).ne'
    have p4 := (Real.Gamma_pos_of_pos ht).ne'
    have p5 := (Real.Gamma_pos_of_pos hb).ne'
    have p6 := (Real.Gamma_pos_of_pos (add_pos ht hb)).ne'
    simp only [l, Int.toNat_natCast]
    rw [W_eq ht hb hj, Real.log_div (mul_ne_zero p.ne' (betaFn_pos q1 q2).ne') (betaFn_pos ht hb).ne', Real.log_mul p.ne' (betaFn_pos q1 q2).ne', betaFn, betaFn,
      show (j:ℝ) + t + ((n - j : ℕ) + b) = n + t + b by rw [Nat.cast_sub hj]; ring, Real.log_div (mul_ne_zero p1 p2) p3, Real.log_mul p1 p2,
      Real.log_div (mul_ne_zero p4 p5) p6, Real.log_mul p4 p5]
    ring
  have d1 : HasDerivAt (fun t : ℝ => Real.log (Real.Gamma (j + t))) (psi (j + a)) a :=
    (hasDerivAt_logGamma (show 0 < (j:ℝ) + a by positivity)).comp_const_add (j:ℝ) a
  have d2 : HasDerivAt (fun t : ℝ => Real.log (Real.Gamma (n + t + b))) (psi (n + a + b)) a := by
    have h : HasDerivAt (fun t : ℝ => Real.log (Real.Gamma ((n + b) + t))) (psi ((n + b) + a)) a :=
      (hasDerivAt_logGamma (show 0 < ((n:ℝ) + b) + a by positivity)).comp_const_add ((n:ℝ) + b) a
    rw [show (n:ℝ) + b + a = n + a + b by ring] at h
    have e : (fun t : ℝ => Real.log (Real.Gamma ((n + b) + t))) = fun t : ℝ => Real.log (Real.Gamma (n + t + b)) := by
      funext t; rw [show (n:ℝ) + b + t = n + t + b by ring]
    exact e ▸ h
  have d4 : HasDerivAt (fun t : ℝ => Real.log (Real.Gamma (t + b))) (psi (a + b)) a :=
    (hasDerivAt_logGamma (show 0 < a + b by positivity)).comp_add_const a b
  refine HasDerivAt.congr_of_eventuallyEq ?_ e
  refine ((((d1.sub d2).sub (hasDerivAt_logGamma ha)).add d4).const_add _).congr_deriv ?_
  simp only [D, Int.cast_natCast]; ring

theorem hasDerivAt_sum (ha : 0 < a) (hb : 0 < b) {ks : List ℤ} (hk : ∀ k ∈ ks, 0 ≤ k ∧ k ≤ n) :
    HasDerivAt (fun a => -(ks.map (l n a b)).sum) (-(ks.map (D n b · a)).sum) a := by
  refine HasDerivAt.neg ?_
  induction ks with
  | nil => exact hasDerivAt_const a (0:ℝ)
  | cons k ks ih =>
    simp only [List.map_cons, List.sum_cons]
    exact (hasDerivAt_l ha hb (hk k (by simp))).add (ih fun k h => hk k (by simp [h]))

/-- The distribution of `n - k`. -/
theorem l_symm {k : ℤ} (hk : 0 ≤ k ∧ k ≤ n) : l n a b k = l n b a (n - k) := by
  obtain ⟨j, rfl⟩ := Int.eq_ofNat_of_zero_le hk.1
  have hj : j ≤ n := by exact_mod_cast hk.2
  rw [show (n:ℤ) - j = ((n - j : ℕ) : ℤ) by omega]
  simp only [l, W, Int.toNat_natCast]
  rw [Nat.choose_symm hj, Nat.sub_sub_self hj, add_comm b a]
  congr 1; ring

/-- `psi (k + a) - psi a` and `psi (n + a + b) - psi (a + b)` as sums. -/
theorem D_eq (ha : 0 < a) (hb : 0 < b) (j : ℕ) : D n b j a = ∑ i ∈ range j, 1 / (a + i) - ∑ i ∈ range n, 1 / (a + b + i) := by
  rw [← psi_add_nat ha, ← psi_add_nat (add_pos ha hb), D, Int.cast_natCast, show (n:ℝ) + a + b = a + b + n by ring, show (j:ℝ) + a = a + j by ring]
  ring

/-- The ratio of the two sums decreases. -/
theorem ratio_anti {a' : ℝ} (ha : 0 < a) (haa : a ≤ a') (hb : 0 < b) {j : ℕ} (hj : j ≤ n) :
    (∑ i ∈ range j, 1 / (a' + i)) * (∑ i ∈ range n, 1 / (a + b + i)) ≤ (∑ i ∈ range j, 1 / (a + i)) * (∑ i ∈ range n, 1 / (a' + b + i)) := by
  have ha' : 0 < a' := ha.trans_le haa
  -- the difference of the products
  let u : ℕ → ℝ := fun i => 1 / ((a + i) * (a' + i))
  let v : ℕ → ℝ := fun i => 1 / ((a + b + i) * (a' + b + i))
  have up : ∀ i, 0 < u i := fun i => by positivity
  have vp : ∀ i, 0 < v i := fun i => by positivity
  have e : (∑ i ∈ range j, 1 / (a + i)) * (∑ i ∈ range n, 1 / (a' + b + i)) - (∑ i ∈ range j, 1 / (a' + i)) * (∑ i ∈ range n, 1 / (a + b + i)) =
      (a' - a) * ∑ i ∈ range j, ∑ m ∈ range n, (b + m - i) * (u i * v m) := by
    rw [sum_mul_sum, sum_mul_sum, ← sum_sub_distrib, mul_sum]
    refine sum_congr rfl fun i _ => ?_
    rw [← sum_sub_distrib, mul_sum]
    refine sum_congr rfl fun m _ => ?_
    have h1 : a + (i:ℝ) ≠ 0 := by positivity
    have h2 : a' + (i:ℝ) ≠ 0 := by positivity
    have h3 : a + b + (m:ℝ) ≠ 0 := by positivity
    have h4 : a' + b + (m:ℝ) ≠ 0 := by positivity
    simp only [u, v]
    field_simp
    ring
  have key : 0 ≤ ∑ i ∈ range j, ∑ m ∈ range n, (b + m - i) * (u i * v m) := by
    have hsub : range j ⊆ range n := range_mono hj
    have s1 : ∀ i ∈ range j, ∑ m ∈ range j, (b + m - i) * (u i * v m) ≤ ∑ m ∈ range n, (b + m - i) * (u i * v m) := by
      intro i hi
      refine sum_le_sum_of_subset_of_nonneg hsub fun m _ hm => ?_
      have h1 : (i:ℝ) ≤ m := by
        have := mem_range.1 hi
        have := not_lt.1 (mt mem_range.2 hm)
        exact_mod_cast (by omega : i ≤ m)
      exact mul_nonneg (by linarith) (mul_pos (up i) (vp m)).le
    refine le_trans ?_ (sum_le_sum s1)
    have s2 : ∑ i ∈ range j, ∑ m ∈ range j, ((m:ℝ) - i) * (u i * v m) ≤ ∑ i ∈ range j, ∑ m ∈ range j, (b + m - i) * (u i * v m) := by
      refine sum_le_sum fun i _ => sum_le_sum fun m _ => mul_le_mul_of_nonneg_right (by linarith) (mul_pos (up i) (vp m)).le
    refine le_trans ?_ s2
    have s3 : ∑ i ∈ range j, ∑ m ∈ range j, ((m:ℝ) - i) * (u i * v m) = ∑ i ∈ range j, ∑ m ∈ range j, ((i:ℝ) - m) * (u m * v i) := sum_comm
    have hmono : ∀ i m : ℕ, i ≤ m → u m * v i ≤ u i * v m := by
      intro i m him
      have h : (i:ℝ) ≤ m := by exact_mod_cast him
      simp only [u, v]
      rw [one_div_mul_one_div, one_div_mul_one_div]
      refine one_div_le_one_div_of_le (by positivity) ?_
      have k1 : (a + i) * (a + b + m) ≤ (a + m) * (a + b + i) := by nlinarith
      have k2 : (a' + i) * (a' + b + m) ≤ (a' + m) * (a' + b + i) := by nlinarith
      have := mul_le_mul k1 k2 (by positivity) (by positivity)
      calc _ = (a + i) * (a + b + m) * ((a' + i) * (a' + b + m)) := by ring
        _ ≤ _ := this
        _ = _ := by ring
    have s4 : 0 ≤ ∑ i ∈ range j, ∑ m ∈ range j, (((m:ℝ) - i) * (u i * v m) + ((i:ℝ) - m) * (u m * v i)) := by
      refine sum_nonneg fun i _ => sum_nonneg fun m _ => ?_
      rcases le_total i m with h | h
      · have h' : (i:ℝ) ≤ m := by exact_mod_cast h
        nlinarith [hmono i m h]
      · have h' : (m:ℝ) ≤ i := by exact_mod_cast h
        nlinarith [hmono m i h]
    simp only [sum_add_distrib] at s4
    linarith
  have := mul_nonneg (sub_nonneg.2 haa) key
  linarith

/-- The derivative of the log-likelihood changes its sign at most once, from plus to minus. -/
theorem D_sign {ks : List ℤ} (hb : 0 < b) (hn : 0 < n) (hk : ∀ k ∈ ks, 0 ≤ k ∧ k ≤ n) {s t : ℝ} (hs : 0 < s) (hst : s ≤ t) :
    (0 ≤ (ks.map (D n b · t)).sum → 0 ≤ (ks.map (D n b · s)).sum) ∧ ((ks.map (D n b · s)).sum ≤ 0 → (ks.map (D n b · t)).sum ≤ 0) := by
  have ht : 0 < t := hs.trans_le hst
  have hg : ∀ x : ℝ, 0 < x → 0 < ∑ i ∈ range n, 1 / (x + b + i) := fun x hx =>
    sum_pos (fun i _ => by positivity) ⟨0, mem_range.2 hn⟩
  have e : ∀ x : ℝ, 0 < x → (ks.map (D n b · x)).sum = (ks.map fun k => ∑ i ∈ range k.toNat, 1 / (x + i)).sum - ks.length * ∑ i ∈ range n, 1 / (x + b + i) := by
    intro x hx
    clear hst
    induction ks with
    | nil => simp
    | cons k ks ih =>
      obtain ⟨j, rfl⟩ := Int.eq_ofNat_of_zero_le (hk k (by simp)).1
      simp only [List.map_cons, List.sum_cons, ih fun k h => hk k (by simp [h]), D_eq hx hb, Int.toNat_natCast, List.length_cons]
      push_cast; ring
  have r : (ks.map fun k => ∑ i ∈ range k.toNat, 1 / (t + i)).sum * (∑ i ∈ range n, 1 / (s + b + i)) ≤
      (ks.map fun k => ∑ i ∈ range k.toNat, 1 / (s + i)).sum * (∑ i ∈ range n, 1 / (t + b + i)) := by
    clear e
    induction ks with
    | nil => simp
    | cons k ks ih =>
      have h1 := ratio_anti hs hst hb (show k.toNat ≤ n by have := hk k (by simp); omega)
      have h2 := ih fun k h => hk k (by simp [h])
      simp only [List.map_cons, List.sum_cons, add_mul]
      linarith
  have g1 := hg s hs
  have g2 := hg t ht
  rw [e s hs, e t ht]
  constructor
  · intro h
    by_contra hc
    push Not at hc
    nlinarith
  · intro h
    by_contra hc
    push Not at hc
    nlinarith

/-- A zero of the derivative is a maximum of the likelihood. -/
theorem min_of_zero {ks : List ℤ} (hb : 0 < b) (hn : 0 < n) (hk : ∀ k ∈ ks, 0 ≤ k ∧ k ≤ n) {s t : ℝ} (hs : 0 < s) (ht : 0 < t)
    (h0 : (ks.map (D n b · s)).sum = 0) : -(ks.map (l n s b)).sum ≤ -(ks.map (l n t b)).sum := by
  refine min_of_deriv_sign (h := fun a => -(ks.map (l n a b)).sum) (h' := fun a => -(ks.map (D n b · a)).sum) (fun x hx => hasDerivAt_sum hx hb hk) hs
    (fun x hx hxs => ?_) (fun x hx => ?_) ht
  · have := (D_sign hb hn hk hx hxs.le).1 h0.ge
    simpa using this
  · have := (D_sign hb hn hk hs hx.le).2 h0.le
    simpa using this

/-- The derivative has a zero unless all values are 0 or all are `n`. -/
theorem exists_zero {ks : List ℤ} (hb : 0 < b) (hk : ∀ k ∈ ks, 0 ≤ k ∧ k ≤ n) (h0 : ∃ k ∈ ks, k ≠ 0) (h1 : ∃ k ∈ ks, k ≠ n) :
    ∃ s : ℝ, 0 < s ∧ (ks.map (D n b · s)).sum = 0 := by
  have hn : 0 < n := by
    obtain ⟨k, hm, hk0⟩ := h0
    have := hk k hm
    omega
  have hn' : (0:ℝ) < n := by exact_mod_cast hn
  have hlen : 0 < ks.length := by
    obtain ⟨k, hm, -⟩ := h0
    exact List.length_pos_of_mem hm
  have hN : (1:ℝ) ≤ ks.length := by exact_mod_cast hlen
  set N : ℝ := (ks.length : ℝ) with hNdef
  have e : ∀ x : ℝ, 0 < x → (ks.map (D n b · x)).sum = (ks.map fun k => ∑ i ∈ range k.toNat, 1 / (x + i)).sum - N * ∑ i ∈ range n, 1 / (x + b + i) := by
    intro x hx
    rw [hNdef]
    clear h0 h1 hlen hN hNdef N
    induction ks with
    | nil => simp
    | cons k ks ih =>
      obtain ⟨j, rfl⟩ := Int.eq_ofNat_of_zero_le (hk k (by simp)).1
      simp only [List.map_cons, List.sum_cons, ih fun k h => hk k (by simp [h]), D_eq hx hb, Int.toNat_natCast, List.length_cons]
      push_cast; ring
  -- positive near 0
  have hlo : 0 ≤ (ks.map (D n b · (b / (N * n)))).sum := by
    have hx : 0 < b / (N * n) := by positivity
    rw [e _ hx]
    obtain ⟨k, hm, hk0⟩ := h0
    have hkp : 0 < k.toNat := by have := hk k hm; omega
    have f1 : N * n / b ≤ (ks.map fun k => ∑ i ∈ range k.toNat, 1 / (b / (N * n) + i)).sum := by
      have g1 : N * n / b ≤ ∑ i ∈ range k.toNat, 1 / (b / (N * n) + i) := by
        refine le_trans ?_ (single_le_sum (f := fun i : ℕ => 1 / (b / (N * n) + i)) (fun i _ => by positivity) (mem_range.2 hkp))
        simp
      exact g1.trans (List.single_le_sum (by simp only [List.mem_map]; rintro _ ⟨k, -, rfl⟩; positivity) _ (List.mem_map_of_mem (f := fun k : ℤ => ∑ i ∈ range k.toNat, 1 / (b / (N * n) + i)) hm))
    have f2 : ∑ i ∈ range n, 1 / (b / (N * n) + b + i) ≤ n * (1 / b) := by
      have := sum_le_card_nsmul (range n) (fun i : ℕ => 1 / (b / (N * n) + b + i)) (1 / b)
        (fun i _ => one_div_le_one_div_of_le hb (by have : (0:ℝ) ≤ i := Nat.cast_nonneg i; linarith))
      simpa using this
    have : N * ∑ i ∈ range n, 1 / (b / (N * n) + b + i) ≤ N * (n * (1 / b)) := mul_le_mul_of_nonneg_left f2 (by linarith)
    have e2 : N * (n * (1 / b)) = N * n / b := by ring
    linarith
  -- negative far out
  have hhi : (ks.map (D n b · (N * n * (b + n)))).sum ≤ 0 := by
    have hx : 0 < N * n * (b + n) := by positivity
    set x := N * n * (b + n) with hxdef
    rw [e x hx]
    have f1 : x * (ks.map fun k => ∑ i ∈ range k.toNat, 1 / (x + i)).sum ≤ (ks.map fun k : ℤ => (k:ℝ)).sum := by
      rw [← List.sum_map_mul_left]
      refine List.sum_le_sum fun k hm => ?_
      have hk0 := (hk k hm).1
      have := sum_le_card_nsmul (range k.toNat) (fun i : ℕ => 1 / (x + i)) (1 / x)
        (fun i _ => one_div_le_one_div_of_le hx (by have : (0:ℝ) ≤ i := Nat.cast_nonneg i; linarith))
      rw [card_range, nsmul_eq_mul] at this
      have h3 : ((k.toNat : ℤ) : ℝ) = (k:ℝ) := by rw [Int.toNat_of_nonneg hk0]
      rw [Int.cast_natCast] at h3
      rw [h3] at this
      have := mul_le_mul_of_nonneg_left this hx.le
      have e3 : x * (k * (1 / x)) = k := by field_simp
      linarith
    have f2 : (ks.map fun k : ℤ => (k:ℝ)).sum ≤ N * n - 1 := by
      obtain ⟨k, hm, hkn⟩ := h1
      have hks : ∀ k ∈ ks, (k:ℝ) ≤ n := fun k hm => by exact_mod_cast (hk k hm).2
      have hk1 : (k:ℝ) + 1 ≤ n := by
        have : k + 1 ≤ n := by have := hk k hm; omega
        exact_mod_cast this
      have g : ∀ ks : List ℤ, (∀ k ∈ ks, (k:ℝ) ≤ n) → (k ∈ ks → (ks.map fun k : ℤ => (k:ℝ)).sum ≤ ks.length * n - 1) ∧
          (ks.map fun k : ℤ => (k:ℝ)).sum ≤ ks.length * n := by
        intro ks
        induction ks with
        | nil => intro _; simp
        | cons k' ks ih =>
          intro h
          obtain ⟨i1, i2⟩ := ih fun k hk => h k (by simp [hk])
          have h' := h k' (by simp)
          simp only [List.map_cons, List.sum_cons, List.length_cons, List.mem_cons]
          push_cast
          refine ⟨?_, by linarith⟩
          rintro (rfl | hm)
          · linarith
          · linarith [i1 hm]
      exact (g ks hks).1 hm
    have f3 : n * (1 / (x + b + n)) ≤ ∑ i ∈ range n, 1 / (x + b + i) := by
      have := card_nsmul_le_sum (range n) (fun i : ℕ => 1 / (x + b + i)) (1 / (x + b + n))
        (fun i hi => one_div_le_one_div_of_le (by positivity) (by
          have : (i:ℝ) ≤ n := by exact_mod_cast (mem_range.1 hi).le
          linarith))
      simpa using this
    have f4 : N * n - 1 ≤ x * (N * (n * (1 / (x + b + n)))) := by
      have hp : 0 < x + b + n := by positivity
      rw [show x * (N * (n * (1 / (x + b + n)))) = x * (N * n) / (x + b + n) by ring, le_div_iff₀ hp]
      rw [hxdef]
      nlinarith
    have f5 : x * (N * (n * (1 / (x + b + n)))) ≤ x * (N * ∑ i ∈ range n, 1 / (x + b + i)) :=
      mul_le_mul_of_nonneg_left (mul_le_mul_of_nonneg_left f3 (by linarith)) hx.le
    by_contra hc
    push Not at hc
    have := mul_pos hx hc
    rw [mul_sub] at this
    linarith
  have hle : b / (N * n) ≤ N * n * (b + n) := by
    rw [div_le_iff₀ (by positivity)]
    have hNn : 1 ≤ N * n := by
      have : (1:ℝ) ≤ n := by exact_mod_cast hn
      nlinarith
    have hPP : 1 ≤ N * n * (N * n) := by nlinarith
    have := mul_le_mul_of_nonneg_right hPP (show 0 ≤ b + n by positivity)
    linarith
  have hcont : ContinuousOn (fun x => (ks.map (D n b · x)).sum) (Set.Icc (b / (N * n)) (N * n * (b + n))) := by
    have hpos : ∀ x ∈ Set.Icc (b / (N * n)) (N * n * (b + n)), 0 < x := fun x hx => lt_of_lt_of_le (by positivity) hx.1
    refine ContinuousOn.congr (f := fun x : ℝ => (ks.map fun k : ℤ => ∑ i ∈ range k.toNat, 1 / (x + (i:ℝ))).sum - N * ∑ i ∈ range n, 1 / (x + b + i)) ?_ fun x hx => e x (hpos x hx)
    refine ContinuousOn.sub ?_ (ContinuousOn.mul continuousOn_const (continuousOn_finset_sum _ fun i _ => ?_))
    · clear hlo hhi hle e h0 h1 hlen hk hN
      clear_value N
      clear hNdef
      induction ks with
      | nil => exact continuousOn_const
      | cons k ks ih =>
        simp only [List.map_cons, List.sum_cons]
        refine ContinuousOn.add (continuousOn_finset_sum _ fun i _ => ?_) ih
        exact continuousOn_const.div (by fun_prop) fun x hx => by have := hpos x hx; positivity
    · exact continuousOn_const.div (by fun_prop) fun x hx => by have := hpos x hx; positivity
  obtain ⟨s, hs, es⟩ := intermediate_value_Icc' hle hcont ⟨hhi, hlo⟩
  exact ⟨s, lt_of_lt_of_le (by positivity) hs.1, es⟩

end Mpsci.betabinomial
