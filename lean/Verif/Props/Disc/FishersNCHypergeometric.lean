import Verif.Lemmas.Disc.FishersNCHypergeometric

/-! Properties of Fisher's noncentral hypergeometric distribution. -/

namespace Mpsci.fishers_noncentral_hypergeometric

open Classical Num Spec fisherExact
open hypergeometric (Valid Supp of_valid H H_pos H_nonneg H_ratio' choose_posR)

variable {N K n : ℤ} {c : ℝ}

theorem supp_iff {K M n : ℕ} (k : ℤ) : k ∈ Supp ((K + M : ℕ) : ℤ) K n ↔ lo M n ≤ k ∧ k < hi K n := by
  simp only [Supp, Set.mem_setOf_eq, lo, hi]; omega

theorem pmf_eval {K M n : ℕ} (hc : 0 < c) (hn : n ≤ K + M) (k : ℤ) :
    pmf k (fin c) ((K + M : ℕ) : ℤ) K n = .ok (fin (extZ (F c K M n) k)) := by
  rw [pmf, hv hn, ok_bind, supportPmf_eval hc hn, ok_bind]
  exact pmfOf_eval _ (fun k hk => F_zero hk) (lo_lt_hi hn) k

/-- C33 `pmf` is a probability mass function on the support. -/
theorem isPmf (hc : 0 < c) (h : Valid N K n) :
    IsPmf Set.univ (Supp N K n) fun k => pmf k (fin c) N K n := by
  obtain ⟨K, M, n, rfl, rfl, rfl, hn⟩ := of_valid h
  refine ⟨Set.subset_univ _, _, mass_univ (pmf_eval hc hn), F_nonneg hc hn, fun k hk => ?_, F_sum hc hn⟩
  exact F_zero fun h => hk ((supp_iff k).2 h)

example : Valid 10 4 3 ∧ (2:ℤ) ∈ Supp 10 4 3 ∧ (0:ℝ) < 5 / 2 := by norm_num [Valid, Supp]

/-- C33 `pmf(k)` is proportional to `binom(ngood, k) binom(ntotal - ngood, nsample - k) nc**k`, as
documented. -/
theorem pmf_counts (hc : 0 < c) (h : Valid N K n) {k : ℤ} (hk : k ∈ Supp N K n) :
    pmf k (fin c) N K n = .ok (fin ((K.toNat.choose k.toNat : ℝ) * (N - K).toNat.choose (n - k).toNat *
      c ^ k.toNat / ∑ j ∈ Finset.range (n.toNat + 1),
        (K.toNat.choose j : ℝ) * (N - K).toNat.choose (n.toNat - j) * c ^ j)) := by
  obtain ⟨K, M, n, rfl, rfl, rfl, hn⟩ := of_valid h
  obtain ⟨h1, h2, h3, h4⟩ := hk
  obtain ⟨k, rfl⟩ := Int.eq_ofNat_of_zero_le h1
  have hk : k ≤ n := by omega
  have h0 : (0:ℝ) < (K + M).choose n := choose_posR hn
  rw [pmf_eval hc hn, extZ_nat, F, Z, show ((K + M : ℕ) : ℤ) - K = M by omega,
    show (n:ℤ) - k = ((n - k : ℕ) : ℤ) by omega]
  simp only [Int.toNat_natCast, u, H]
  rw [← mul_div_mul_right _ (∑ k ∈ Finset.range (n + 1), (w K M n k : ℝ) / (K + M).choose n * c ^ k) h0.ne',
    Finset.sum_mul]
  have e : ∀ j ≤ n, (w K M n j : ℝ) / (K + M).choose n * c ^ j * (K + M).choose n =
      (K.choose j : ℝ) * M.choose (n - j) * c ^ j := by
    intro j hj
    rw [w, if_pos hj]; push_cast; field_simp
  rw [e k hk, Finset.sum_congr rfl fun j hj => e j (by rw [Finset.mem_range] at hj; omega)]

/-- C33 every probability in the support is positive. -/
theorem pmf_pos (hc : 0 < c) (h : Valid N K n) {k : ℤ} (hk : k ∈ Supp N K n) :
    ∃ r : ℝ, 0 < r ∧ pmf k (fin c) N K n = .ok (fin r) := by
  obtain ⟨K, M, n, rfl, rfl, rfl, hn⟩ := of_valid h
  refine ⟨_, ?_, pmf_eval hc hn k⟩
  have hk' := (supp_iff k).1 hk
  obtain ⟨k, rfl⟩ := Int.eq_ofNat_of_zero_le hk.1
  rw [extZ_nat]
  exact div_pos (u_pos hc hn hk'.1 hk'.2) (Z_pos hc hn)

/-- C33 `support` lists the points of the support, and `support_pmf` returns it with the probabilities at its
points. -/
theorem supportPmf_spec (hc : 0 < c) (h : Valid N K n) :
    ∃ l p, support (fin c) N K n = .ok l ∧ supportPmf (fin c) N K n = .ok (l, p.map fin) ∧ l.Nodup ∧
      (∀ k, k ∈ l ↔ k ∈ Supp N K n) ∧
      List.Forall₂ (fun k r => pmf k (fin c) N K n = .ok (fin r)) l p ∧ p.sum = 1 := by
  obtain ⟨K, M, n, rfl, rfl, rfl, hn⟩ := of_valid h
  refine ⟨_, (py.range (lo M n) (hi K n)).map fun k => extZ (F c K M n) k, support_eval hn, ?_,
    py.nodup_range _ _, fun k => by rw [py.mem_range, supp_iff], ?_, ?_⟩
  · rw [supportPmf_eval hc hn, List.map_map]; rfl
  · rw [List.forall₂_map_right_iff, List.forall₂_same]
    exact fun k _ => pmf_eval hc hn k
  · have := hasSum_range (f := extZ (F c K M n)) (lo := lo M n) (hi := hi K n) fun k hk => F_zero hk
    exact this.unique (F_sum hc hn)

/-- C33, C07 parameters outside the domain are rejected by every function, whatever `nc`. -/
theorem rejects (h : ¬ Valid N K n) (k : ℤ) (nc : Num) :
    pmf k nc N K n = .error .valueError ∧ cdf k nc N K n = .error .valueError ∧
    sf k nc N K n = .error .valueError ∧ support nc N K n = .error .valueError ∧
    supportPmf nc N K n = .error .valueError ∧ mean nc N K n = .error .valueError ∧
    mode nc N K n = .error .valueError := by
  have hv : hypergeometric.validate N K n = .error .valueError := by
    apply hypergeometric.validate_bad
    unfold Valid at h
    omega
  simp [pmf, cdf, sf, support, hypergeometric.support, supportPmf, mean, mode, hv]

example : ¬ Valid 10 11 3 := by norm_num [Valid]

/-- C34 `cdf(k)` is the sum of the probabilities up to `k`, for every integer `k`. -/
theorem isSumCdf (hc : 0 < c) (h : Valid N K n) :
    IsSumCdf Set.univ Set.univ (fun k => pmf k (fin c) N K n) (fun k => cdf k (fin c) N K n) := by
  obtain ⟨K, M, n, rfl, rfl, rfl, hn⟩ := of_valid h
  refine ⟨_, mass_univ (pmf_eval hc hn), fun k _ => ?_⟩
  simp only [cdf, hv hn, ok_bind, supportPmf_eval hc hn]
  exact cdfOf_eval _ (fun k hk => F_zero hk) (lo_lt_hi hn) (F_sum hc hn) k

/-- C34 `sf(k)` is the sum of the probabilities above `k`, for every integer `k`. -/
theorem isSumSf (hc : 0 < c) (h : Valid N K n) :
    IsSumSf Set.univ Set.univ (fun k => pmf k (fin c) N K n) (fun k => sf k (fin c) N K n) := by
  obtain ⟨K, M, n, rfl, rfl, rfl, hn⟩ := of_valid h
  refine ⟨_, mass_univ (pmf_eval hc hn), fun k _ => ?_⟩
  simp only [sf, hv hn, ok_bind, supportPmf_eval hc hn]
  exact sfOf_eval _ (fun k hk => F_zero hk) (lo_lt_hi hn) (F_sum hc hn) k

/-- C37 `mean` is the expected value. -/
theorem isMean (hc : 0 < c) (h : Valid N K n) :
    IsDMean Set.univ (fun k => pmf k (fin c) N K n) (mean (fin c) N K n) := by
  obtain ⟨K, M, n, rfl, rfl, rfl, hn⟩ := of_valid h
  obtain ⟨m, e, hm⟩ := meanOf_eval (extZ (F c K M n)) (a := lo M n) (b := hi K n) fun k hk => F_zero hk
  refine ⟨_, m, mass_univ (pmf_eval hc hn), ?_, hm⟩
  rw [mean, hv hn, ok_bind, supportPmf_eval hc hn, ok_bind, e]

/-- The quadratic polynomial of `mode` and its smaller positive root. -/
theorem quad {A B C s x : ℝ} (hs : s ^ 2 = B ^ 2 - 4 * A * C) (ht : B - s < 0)
    (hx : x = -(2 * C) / (B - s)) (y : ℝ) :
    A * y ^ 2 + B * y + C = (y - x) * (A * (y - x) - s) ∧ 2 * A * x + B = -s := by
  have hx' : x * (B - s) = -(2 * C) := by rw [hx, div_mul_cancel₀ _ ht.ne]
  have h1 : 2 * A * x + B = -s := by
    have : (2 * A * x + B) * (B - s) = -s * (B - s) := by
      calc (2 * A * x + B) * (B - s) = 2 * A * (x * (B - s)) + B * (B - s) := by ring
        _ = -s * (B - s) := by rw [hx']; linear_combination -hs
    exact mul_right_cancel₀ ht.ne this
  refine ⟨?_, h1⟩
  have h2 : C = A * x ^ 2 + s * x := by
    have : x * (B - s) = -(2 * C) := hx'
    have hB : B = -s - 2 * A * x := by linarith
    rw [hB] at this; linarith
  rw [h2, show B = -s - 2 * A * x by linarith]; ring

theorem quad_sign {A B C s x m : ℝ} (hC : 0 < C) (hs0 : 0 ≤ s) (hs : s ^ 2 = B ^ 2 - 4 * A * C)
    (ht : B - s < 0) (hx : x = -(2 * C) / (B - s)) (hm : A * m ^ 2 + B * m + C < 0) :
    0 < x ∧ (∀ y, 0 ≤ y → y ≤ x → 0 ≤ A * y ^ 2 + B * y + C) ∧
      ∀ y, x < y → y ≤ m → A * y ^ 2 + B * y + C < 0 := by
  have h2 := (quad hs ht hx 0).2
  have hx0 : 0 < x := by
    rw [hx]; exact div_pos_of_neg_of_neg (by linarith) ht
  refine ⟨hx0, fun y hy hyx => ?_, fun y hy hym => ?_⟩
  · rw [(quad hs ht hx y).1]
    refine mul_nonneg_of_nonpos_of_nonpos (by linarith) ?_
    rcases le_or_gt 0 A with hA | hA
    · nlinarith
    · nlinarith
  · rw [(quad hs ht hx y).1]
    refine mul_neg_of_pos_of_neg (by linarith) ?_
    rcases le_or_gt A 0 with hA | hA
    · have hs1 : 0 < s := by
        refine lt_of_le_of_ne hs0 fun h0 => ?_
        rw [← h0] at hs ht
        nlinarith
      nlinarith
    · have h3 := (quad hs ht hx m).1
      rw [h3] at hm
      have h4 : 0 < m - x := by linarith
      have h5 : A * (m - x) - s < 0 := by
        by_contra hcon
        have := mul_nonneg h4.le (not_lt.1 hcon)
        linarith
      nlinarith

/-- C36 `mode` is a most probable value; of two most probable values it is the larger one, as the
documentation says. -/
theorem isMode (hc : 0 < c) (h : Valid N K n) :
    IsDModeHi Set.univ (fun k => pmf k (fin c) N K n) (mode (fin c) N K n) := by
  obtain ⟨K, M, n, rfl, rfl, rfl, hn⟩ := of_valid h
  set A : ℝ := c - 1 with hA
  set B : ℝ := ((n:ℝ) - M) - (K + n + 2) * c with hB
  set C : ℝ := (K + 1) * (n + 1) * c with hC
  have C0 : 0 < C := by positivity
  have q : ∀ y : ℝ, A * y ^ 2 + B * y + C = c * (K + 1 - y) * (n + 1 - y) - y * (M - n + y) := by
    intro y; rw [hA, hB, hC]; ring
  have K0 : (0:ℝ) ≤ K := Nat.cast_nonneg K
  have M0 : (0:ℝ) ≤ M := Nat.cast_nonneg M
  have n0 : (0:ℝ) ≤ n := Nat.cast_nonneg n
  have hn' : (n:ℝ) ≤ K + M := by exact_mod_cast hn
  set m1 : ℝ := ((min K n : ℕ) : ℝ) + 1 with hm1
  have hm : A * m1 ^ 2 + B * m1 + C < 0 := by
    rw [q]
    rcases le_total K n with hk | hk
    · have e : m1 = K + 1 := by rw [hm1, min_eq_left hk]
      rw [e]; nlinarith
    · have e : m1 = n + 1 := by rw [hm1, min_eq_right hk]
      rw [e]; nlinarith
  have hD : 0 ≤ B ^ 2 - 4 * A * C := by
    by_contra hD
    rw [not_le] at hD
    have hA0 : 0 < A := by nlinarith [sq_nonneg B]
    have : 4 * A * (A * m1 ^ 2 + B * m1 + C) = (2 * A * m1 + B) ^ 2 - (B ^ 2 - 4 * A * C) := by ring
    have h2 := mul_neg_of_pos_of_neg (by linarith : (0:ℝ) < 4 * A) hm
    rw [this] at h2
    nlinarith [sq_nonneg (2 * A * m1 + B)]
  set s := Real.sqrt (B ^ 2 - 4 * A * C) with hs
  have hs0 : 0 ≤ s := Real.sqrt_nonneg _
  have hs2 : s ^ 2 = B ^ 2 - 4 * A * C := Real.sq_sqrt hD
  have ht : B - s < 0 := by
    rcases le_or_gt 0 A with hA0 | hA0
    · have : B < 0 := by rw [hB]; nlinarith
      linarith
    · by_contra hcon
      nlinarith [mul_pos_of_neg_of_neg hA0 (neg_neg_of_pos C0)]
  set x : ℝ := -(2 * C) / (B - s) with hx
  obtain ⟨x0, pos, neg⟩ := quad_sign C0 hs0 hs2 ht hx hm
  have xm : x < m1 := by
    by_contra hcon
    have := pos m1 (by positivity) (not_lt.1 hcon)
    linarith
  obtain ⟨m, hfl⟩ := Int.eq_ofNat_of_zero_le (Int.floor_nonneg.2 x0.le)
  have f1 : (m:ℝ) ≤ x := by have := Int.floor_le x; rw [hfl] at this; exact_mod_cast this
  have f2 : x < m + 1 := by have := Int.lt_floor_add_one x; rw [hfl] at this; exact_mod_cast this
  have mK : m ≤ min K n := by
    have : (m:ℝ) < ((min K n : ℕ) : ℝ) + 1 := by linarith
    exact_mod_cast Nat.lt_succ_iff.1 (by exact_mod_cast this)
  have mlo : n ≤ m + M := by
    by_contra hcon
    have h1 : (M:ℝ) + m + 1 ≤ n := by exact_mod_cast (show M + m + 1 ≤ n by omega)
    have h2 : (0:ℝ) ≤ (n:ℝ) - M := by linarith
    have h3 : x < (n:ℝ) - M := by linarith
    have h4 : (n:ℝ) - M ≤ m1 := by
      have : n ≤ min K n + 1 + M := by omega
      have : (n:ℝ) ≤ ((min K n : ℕ) : ℝ) + 1 + M := by exact_mod_cast this
      rw [hm1]; linarith
    have h5 := neg _ h3 h4
    rw [q] at h5
    have h6 : 0 ≤ c * ((K:ℝ) + 1 - (n - M)) * (n + 1 - (n - M)) :=
      mul_nonneg (mul_nonneg hc.le (by linarith)) (by linarith)
    nlinarith
  have ratio : ∀ k : ℕ, n ≤ k + M → u c K M n (k + 1) * (((k:ℝ) + 1) * (k + M + 1 - n)) =
      u c K M n k * ((A * ((k:ℝ) + 1) ^ 2 + B * ((k:ℝ) + 1) + C) + ((k:ℝ) + 1) * (k + M + 1 - n)) := by
    intro k hk
    have := H_ratio' (K := K) (M := M) (n := n) (k := k) hk
    rw [q, u, u, pow_succ]
    linear_combination (c ^ k * c) * this
  have dpos : ∀ k : ℕ, n ≤ k + M → (0:ℝ) < ((k:ℝ) + 1) * (k + M + 1 - n) := by
    intro k hk
    have : (n:ℝ) ≤ k + M := by exact_mod_cast hk
    exact mul_pos (by positivity) (by linarith)
  have hZ := Z_pos (K := K) (M := M) hc hn
  have key := unimodal_hi (f := F c K M n) (m := m)
    (fun k => div_nonneg (u_nonneg hc) hZ.le) (fun k hk => ?_) (fun k hk hp => ?_) (fun k hk h0 => ?_) ?_
  · have hmode : mode (fin c) ((K + M : ℕ) : ℤ) K n = .ok (m:ℤ) := by
      have e1 : ofInt ((K:ℤ) + n - ((K + M : ℕ) : ℤ)) - ofInt ((K:ℤ) + n + 2) * fin c = fin B := by
        simp only [ofInt_def, fin_mul, fin_sub, hB]
        push_cast; congr 1; ring
      have e2 : ofInt (((K:ℤ) + 1) * ((n:ℤ) + 1)) * fin c = fin C := by
        simp only [ofInt_def, fin_mul, hC]
        push_cast; rfl
      have e3 : fin c - 1 = fin A := by rw [one_def, fin_sub]
      have e4 : mp.ipow (fin B) 2 - 4 * fin A * fin C = fin (B ^ 2 - 4 * A * C) := by
        simp only [mp.ipow_fin, ofNat_def, fin_mul, fin_sub]
      rw [mode, hv hn, ok_bind]
      simp only [e1, e2, e3]
      rw [e4, mp.sqrt_nonneg hD, ok_bind]
      simp only [ofNat_def, fin_mul, neg_fin, fin_sub]
      rw [← hs, fin_div _ ht.ne, ok_bind, mp.floor_fin, ← hx, hfl, py.int_cast]
    exact ⟨_, m, mass_univ (pmf_eval hc hn), hmode, Set.mem_univ _, fun j => (key j).1,
      fun j hj => (key j).2 hj⟩
  · rcases le_or_gt n (k + M) with h | h
    · have r := ratio k h
      have d := dpos k h
      have q0 := pos ((k:ℝ) + 1) (by positivity) (by
        have : ((k + 1 : ℕ) : ℝ) ≤ m := by exact_mod_cast hk
        push_cast at this; linarith)
      have : u c K M n k * (((k:ℝ) + 1) * (k + M + 1 - n)) ≤
          u c K M n (k + 1) * (((k:ℝ) + 1) * (k + M + 1 - n)) := by
        rw [r]; exact mul_le_mul_of_nonneg_left (by linarith) (u_nonneg hc)
      exact div_le_div_of_nonneg_right (le_of_mul_le_mul_right this d) hZ.le
    · have : u c K M n k = 0 := u_zero (by unfold lo; omega)
      rw [F, this, zero_div]; exact div_nonneg (u_nonneg hc) hZ.le
  · have h : n ≤ k + M := by omega
    have r := ratio k h
    have d := dpos k h
    have hu : 0 < u c K M n k := by
      by_contra hcon
      have : u c K M n k = 0 := le_antisymm (not_lt.1 hcon) (u_nonneg hc)
      rw [F, this, zero_div] at hp; exact lt_irrefl _ hp
    have hk' : k ≤ min K n := by
      by_contra hcon
      exact hu.ne' (u_zero (by unfold hi; omega))
    have q0 := neg ((k:ℝ) + 1) (by
        have : (m:ℝ) ≤ k := by exact_mod_cast hk
        linarith) (by
        have : (k:ℝ) ≤ ((min K n : ℕ) : ℝ) := by exact_mod_cast hk'
        rw [hm1]; linarith)
    have : u c K M n (k + 1) * (((k:ℝ) + 1) * (k + M + 1 - n)) <
        u c K M n k * (((k:ℝ) + 1) * (k + M + 1 - n)) := by
      rw [r]; exact mul_lt_mul_of_pos_left (by linarith) hu
    exact div_lt_div_of_pos_right (lt_of_mul_lt_mul_right this d.le) hZ
  · have h : n ≤ k + M := by omega
    have r := ratio k h
    have d := dpos k h
    have hu : u c K M n k = 0 := by
      rcases div_eq_zero_iff.1 h0 with h | h
      · exact h
      · exact absurd h hZ.ne'
    rw [hu, zero_mul] at r
    rw [F, (mul_eq_zero.1 r).resolve_right d.ne', zero_div]
  · refine div_pos (u_pos hc hn ?_ ?_) hZ
    · unfold lo; omega
    · unfold hi; omega

/-! ### The cache -/

/-- Every cached list is the one that would be computed. -/
def Faithful (s : State) : Prop :=
  ∀ key sup r, s.cache key = some (sup, r) → r < s.heap.length ∧
    supportPmf0 key.nc key.ntotal key.ngood key.nsample = .ok (sup, s.heap.getD r [])

theorem faithful_init : Faithful .init := by intro key sup r h; simp [State.init] at h

theorem faithful_supportPmfS {key : Key} {s s' : State} {r : List ℤ × ℕ} (h : Faithful s)
    (e : supportPmfS key s = .ok (r, s')) : Faithful s' ∧ s'.cache key = some r := by
  simp only [supportPmfS] at e
  rcases hval : hypergeometric.validate key.ntotal key.ngood key.nsample with er | ⟨⟨⟩⟩
  · rw [hval] at e; cases e
  rw [hval, ok_bind] at e
  cases hcache : s.cache key with
  | some r0 =>
    rw [hcache] at e
    simp only [pure_eq_ok, Except.ok.injEq, Prod.mk.injEq] at e
    rw [← e.1, ← e.2]; exact ⟨h, hcache⟩
  | none =>
    rw [hcache] at e
    rcases ht : supportPmf0 key.nc key.ntotal key.ngood key.nsample with er | ⟨sup, values⟩
    · rw [ht] at e; cases e
    rw [ht, ok_bind] at e
    simp only [pure_eq_ok, Except.ok.injEq, Prod.mk.injEq] at e
    rw [← e.1, ← e.2]
    refine ⟨?_, by simp⟩
    intro key' sup' r' hk
    simp only at hk
    by_cases hkk : key' = key
    · subst hkk
      rw [if_pos rfl] at hk
      simp only [Option.some.injEq, Prod.mk.injEq] at hk
      obtain ⟨rfl, rfl⟩ := hk
      simp [ht]
    · rw [if_neg hkk] at hk
      obtain ⟨h1, h2⟩ := h key' sup' r' hk
      refine ⟨by simp; omega, ?_⟩
      rw [h2]
      simp [List.getD_eq_getElem?_getD, List.getElem?_append_left h1]

theorem faithful_step {s : State} (h : Faithful s) {e : Event} (he : ∀ r i v, e ≠ .write r i v) :
    Faithful (step s e) := by
  cases e with
  | write r i v => exact absurd rfl (he r i v)
  | evict key =>
    intro key' sup r hk
    simp only [step] at hk
    by_cases hkk : key' = key
    · rw [if_pos hkk] at hk; cases hk
    · rw [if_neg hkk] at hk; exact h key' sup r hk
  | call key =>
    simp only [step]
    rcases e : supportPmfS key s with er | ⟨r, s'⟩
    · exact h
    · exact (faithful_supportPmfS h e).1

theorem faithful_run {es : List Event} (he : ∀ e ∈ es, ∀ r i v, e ≠ Event.write r i v) :
    Faithful (run es) := by
  unfold run
  suffices ∀ s, Faithful s → Faithful (es.foldl step s) from this _ faithful_init
  induction es with
  | nil => exact fun s h => h
  | cons e es ih =>
    intro s h
    exact ih (fun e' h' => he e' (List.mem_cons_of_mem _ h')) _ (faithful_step h (he e (by simp)))

theorem viaCache_eq {α : Type} (f : List ℤ × List Num → M α) {key : Key} {s : State} (h : Faithful s) :
    viaCache f key s = (do
      hypergeometric.validate key.ntotal key.ngood key.nsample
      f (← supportPmf key.nc key.ntotal key.ngood key.nsample)) := by
  simp only [viaCache, supportPmf]
  rcases hval : hypergeometric.validate key.ntotal key.ngood key.nsample with er | ⟨⟨⟩⟩
  · rfl
  simp only [ok_bind]
  rcases ht : supportPmf0 key.nc key.ntotal key.ngood key.nsample with er | ⟨sup, values⟩
  · cases hcache : s.cache key with
    | some r =>
      have := (h key r.1 r.2 hcache).2
      rw [ht] at this; cases this
    | none => simp only [supportPmfS, hval, ok_bind, hcache, ht]; rfl
  · cases hcache : s.cache key with
    | some r =>
      have := (h key r.1 r.2 hcache).2
      rw [ht] at this
      simp only [Except.ok.injEq, Prod.mk.injEq] at this
      simp only [supportPmfS, hval, ok_bind, hcache, pure_eq_ok]
      rw [this.1, this.2]
    | none =>
      simp only [supportPmfS, hval, ok_bind, hcache, ht, pure_eq_ok]
      simp

/-- C44 whatever calls were made before and whatever entries the cache has lost, `pmf`, `cdf`, `sf` and `mean`
return what they would compute without a cache, as long as no caller has written to a returned list. -/
theorem cache_transparent_partial {es : List Event} (he : ∀ e ∈ es, ∀ r i v, e ≠ Event.write r i v)
    (k : ℤ) (key : Key) :
    pmfS k key (run es) = pmf k key.nc key.ntotal key.ngood key.nsample ∧
    cdfS k key (run es) = cdf k key.nc key.ntotal key.ngood key.nsample ∧
    sfS k key (run es) = sf k key.nc key.ntotal key.ngood key.nsample ∧
    meanS key (run es) = mean key.nc key.ntotal key.ngood key.nsample := by
  have h := faithful_run he
  exact ⟨viaCache_eq _ h, viaCache_eq _ h, viaCache_eq _ h, viaCache_eq _ h⟩

example : ∀ e ∈ [Event.call ⟨2, 10, 4, 3, 53⟩, .evict ⟨2, 10, 4, 3, 53⟩, .call ⟨2, 10, 4, 3, 53⟩],
    ∀ r i v, e ≠ Event.write r i v := by
  intro e he r i v
  simp only [List.mem_cons, List.not_mem_nil, or_false] at he
  rcases he with rfl | rfl | rfl <;> exact fun h => by cases h

/-- C44 fails when a caller changes the list that `support_pmf` returned: for every valid distribution, after
`support_pmf(...)[1][0] = v` the next call of `pmf` at the first point of the support returns `v`. -/
theorem cache_corrupted (hc : 0 < c) (h : Valid N K n) (prec : ℕ) (v : Num) :
    ∃ k ∈ Supp N K n, pmfS k ⟨fin c, N, K, n, prec⟩
      (run [.call ⟨fin c, N, K, n, prec⟩, .write 0 0 v]) = .ok v := by
  obtain ⟨K, M, n, rfl, rfl, rfl, hn⟩ := of_valid h
  have hlt := lo_lt_hi hn
  refine ⟨lo M n, (supp_iff _).2 ⟨le_rfl, hlt⟩, ?_⟩
  set key : Key := ⟨fin c, ((K + M : ℕ) : ℤ), K, n, prec⟩ with hkey
  have e1 : supportPmfS key .init = .ok ((py.range (lo M n) (hi K n), 0),
      ⟨[(py.range (lo M n) (hi K n)).map fun k => fin (extZ (F c K M n) k)],
        fun key' => if key' = key then some (py.range (lo M n) (hi K n), 0) else none⟩) := by
    simp only [supportPmfS, hkey, hv hn, ok_bind, State.init, table hc hn]
    rfl
  have hm : lo M n ∈ py.range (lo M n) (hi K n) := py.mem_range.2 ⟨le_rfl, hlt⟩
  have hlen : 0 < ((py.range (lo M n) (hi K n)).map fun k => fin (extZ (F c K M n) k)).length := by
    rw [List.length_map]; exact List.length_pos_of_mem hm
  simp only [run, List.foldl_cons, List.foldl_nil, step, e1, pmfS, viaCache]
  simp only [supportPmfS, hkey, hv hn, ok_bind]
  simp only [if_true, pure_eq_ok, ok_bind, pmfOf, if_pos hm, item0 hlt, sub_self]
  have := py.item_nat (l := ((py.range (lo M n) (hi K n)).map fun k => fin (extZ (F c K M n) k)).set 0 v)
    (i := 0) (by simpa using hlen)
  simpa using this

end Mpsci.fishers_noncentral_hypergeometric
