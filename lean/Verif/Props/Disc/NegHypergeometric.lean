import Verif.Lemmas.Disc.NegHypergeometric
import Verif.Props.Fun.Log
import Verif.Base.PyNum

/-! Properties of the negative hypergeometric distribution. -/

namespace Mpsci.negative_hypergeometric

open Classical Num Spec

/-- Admissible parameters: `ngood` of the `ntotal` items are good, and there are at least `untilnbad` bad
items. -/
def Valid (ntotal ngood untilnbad : ℤ) : Prop :=
  0 ≤ ngood ∧ ngood ≤ ntotal ∧ 0 ≤ untilnbad ∧ untilnbad ≤ ntotal - ngood

/-- The support: up to `ngood` good items can be drawn before the bad item number `untilnbad`; none if
`untilnbad = 0`. -/
def Supp (ngood untilnbad : ℤ) : Set ℤ := {k | 0 ≤ k ∧ k ≤ ngood ∧ (untilnbad = 0 → k = 0)}

variable {N K r : ℤ}

theorem validate_ok (h : Valid N K r) : validate N K r = .ok () := by
  obtain ⟨h1, h2, h3, h4⟩ := h
  simp only [validate]
  rw [if_neg (by omega), if_neg (by omega), if_neg (by omega)]

theorem validate_bad (h : ¬ Valid N K r) : validate N K r = .error .valueError := by
  unfold validate
  unfold Valid at h
  split_ifs <;> first | rfl | omega

/-- The mass for `untilnbad = 0`. -/
noncomputable def D (k : ℕ) : ℝ := if k = 0 then 1 else 0

theorem D_sum : HasSum D 1 := hasSum_ite_eq 0 1

theorem pmf_zero {K B : ℕ} (k : ℤ) : pmf k ((K + B : ℕ) : ℤ) K 0 = .ok (fin (extZ D k)) := by
  have hv := validate_ok (N := ((K + B : ℕ) : ℤ)) (K := K) (r := 0) ⟨by omega, by omega, le_rfl, by omega⟩
  have c3 : ((K + B).choose K : ℝ) ≠ 0 := (hypergeometric.choose_posR (by omega)).ne'
  have b3 := mp.binomial_nat (K + B) K
  revert k
  refine forall_int (fun k => ?_) (fun k hk => ?_)
  · rw [extZ_nat]
    by_cases hk : K < k
    · have : ((k:ℤ) < 0 ∨ (k:ℤ) > K) := by omega
      simp only [pmf, hv, ok_bind, if_pos this, pure_eq_ok, zero_def, D, if_neg (show k ≠ 0 by omega)]
    · have h0 : ¬ ((k:ℤ) < 0 ∨ (k:ℤ) > K) := by omega
      have b2 := mp.binomial_nat (K + B - k) (K - k)
      simp only [pmf, hv, ok_bind, if_neg h0, b3]
      rw [show ((K + B : ℕ) : ℤ) - 0 - k = ((K + B - k : ℕ) : ℤ) by omega,
        show (K:ℤ) - k = ((K - k : ℕ) : ℤ) by omega, b2]
      rcases k with _ | k
      · have b1 : mp.binomial (((0:ℕ):ℤ) + 0 - 1) ((0:ℕ):ℤ) = .ok (fin 1) := by
          simp [mp.binomial, Ring.choose_zero_right]
        rw [b1]
        simp only [ok_bind, fin_div _ c3, fin_mul, pure_eq_ok, Nat.sub_zero, div_self c3, D, if_true,
          one_mul]
      · have b1 : mp.binomial (((k + 1 : ℕ) : ℤ) + 0 - 1) ((k + 1 : ℕ) : ℤ) = .ok (fin 0) := by
          rw [show ((k + 1 : ℕ) : ℤ) + 0 - 1 = (k:ℤ) by omega, mp.binomial_nat,
            Nat.choose_eq_zero_of_lt (by omega)]
          simp
        rw [b1]
        simp only [ok_bind, fin_div _ c3, fin_mul, pure_eq_ok, zero_mul, D,
          if_neg (Nat.succ_ne_zero k)]
  · have : (k < 0 ∨ k > (K:ℤ)) := Or.inl hk
    rw [extZ_neg _ hk]
    simp only [pmf, hv, ok_bind, if_pos this, pure_eq_ok, zero_def]

theorem valid_nat (s b K : ℕ) : Valid ((K + (s + 1 + b) : ℕ) : ℤ) K ((s + 1 : ℕ) : ℤ) :=
  ⟨by omega, by omega, by omega, by omega⟩

theorem pmf_succ {s b K : ℕ} (k : ℤ) :
    pmf k ((K + (s + 1 + b) : ℕ) : ℤ) K ((s + 1 : ℕ) : ℤ) = .ok (fin (extZ (Q s b K) k)) := by
  have hv := validate_ok (valid_nat s b K)
  have c3 : ((K + (s + 1 + b)).choose K : ℝ) ≠ 0 := (C_pos s b K).ne'
  have b3 := mp.binomial_nat (K + (s + 1 + b)) K
  revert k
  refine forall_int (fun k => ?_) (fun k hk => ?_)
  · rw [extZ_nat]
    by_cases hk : K < k
    · have : ((k:ℤ) < 0 ∨ (k:ℤ) > K) := by omega
      simp only [pmf, hv, ok_bind, if_pos this, pure_eq_ok, zero_def, Q_zero hk]
    · have h0 : ¬ ((k:ℤ) < 0 ∨ (k:ℤ) > K) := by omega
      have b1 := mp.binomial_nat (k + s) k
      have b2 := mp.binomial_nat (b + K - k) (K - k)
      simp only [pmf, hv, ok_bind, if_neg h0, b3]
      rw [show (k:ℤ) + ((s + 1 : ℕ) : ℤ) - 1 = ((k + s : ℕ) : ℤ) by omega, b1,
        show ((K + (s + 1 + b) : ℕ) : ℤ) - ((s + 1 : ℕ) : ℤ) - k = ((b + K - k : ℕ) : ℤ) by omega,
        show (K:ℤ) - k = ((K - k : ℕ) : ℤ) by omega, b2]
      simp only [ok_bind, fin_div _ c3, fin_mul, pure_eq_ok, Q, A, if_pos (not_lt.1 hk)]
      push_cast
      rw [mul_div_assoc]
  · have : (k < 0 ∨ k > (K:ℤ)) := Or.inl hk
    rw [extZ_neg _ hk]
    simp only [pmf, hv, ok_bind, if_pos this, pure_eq_ok, zero_def]

/-- Every admissible choice of parameters is one of two kinds. -/
theorem of_valid {P : ℤ → ℤ → ℤ → Prop} (h : Valid N K r) (h0 : ∀ K B : ℕ, P ((K + B : ℕ) : ℤ) K 0)
    (h1 : ∀ s b K : ℕ, P ((K + (s + 1 + b) : ℕ) : ℤ) K ((s + 1 : ℕ) : ℤ)) : P N K r := by
  obtain ⟨a1, a2, a3, a4⟩ := h
  rcases a3.eq_or_lt with e | e
  · have := h0 K.toNat (N - K).toNat
    rw [show ((K.toNat + (N - K).toNat : ℕ) : ℤ) = N by omega, show ((K.toNat : ℕ) : ℤ) = K by omega,
      e] at this
    exact this
  · have := h1 (r - 1).toNat (N - K - r).toNat K.toNat
    rw [show ((K.toNat + ((r - 1).toNat + 1 + (N - K - r).toNat) : ℕ) : ℤ) = N by omega,
      show ((K.toNat : ℕ) : ℤ) = K by omega, show (((r - 1).toNat + 1 : ℕ) : ℤ) = r by omega] at this
    exact this

/-- C33 `pmf` is a probability mass function on the support. -/
theorem isPmf (h : Valid N K r) : IsPmf Set.univ (Supp K r) fun k => pmf k N K r := by
  refine of_valid (P := fun N K r => IsPmf Set.univ (Supp K r) fun k => pmf k N K r) h
    (fun K B => ?_) (fun s b K => ?_)
  · refine ⟨Set.subset_univ _, _, mass_univ pmf_zero, ?_, ?_, hasSum_extZ D_sum⟩
    · exact forall_int (fun k => by rw [extZ_nat]; unfold D; positivity)
        (fun k hk => by rw [extZ_neg _ hk])
    · refine forall_int (fun k hk => ?_) (fun k hk _ => extZ_neg _ hk)
      rw [extZ_nat, D, if_neg]
      rintro rfl
      exact hk ⟨le_rfl, by simp, fun _ => rfl⟩
  · refine ⟨Set.subset_univ _, _, mass_univ pmf_succ, ?_, ?_, hasSum_extZ (Q_sum s b K)⟩
    · exact forall_int (fun k => by rw [extZ_nat]; exact Q_nonneg)
        (fun k hk => by rw [extZ_neg _ hk])
    · refine forall_int (fun k hk => ?_) (fun k hk _ => extZ_neg _ hk)
      rw [extZ_nat]
      refine Q_zero ?_
      by_contra hc
      exact hk ⟨by omega, by omega, fun e => by omega⟩

/-- C33 every probability in the support is positive. -/
theorem pmf_pos (h : Valid N K r) {k : ℤ} (hk : k ∈ Supp K r) :
    ∃ x : ℝ, 0 < x ∧ pmf k N K r = .ok (fin x) := by
  revert hk
  refine of_valid (P := fun N K r => k ∈ Supp K r → ∃ x : ℝ, 0 < x ∧ pmf k N K r = .ok (fin x)) h
    (fun K B hk => ?_) (fun s b K hk => ?_)
  · obtain rfl := hk.2.2 rfl
    refine ⟨1, one_pos, (pmf_zero 0).trans ?_⟩
    simp [extZ, D]
  · obtain ⟨h1, h2, -⟩ := hk
    obtain ⟨k, rfl⟩ := Int.eq_ofNat_of_zero_le h1
    exact ⟨Q s b K k, Q_pos (by omega), (pmf_succ _).trans (by rw [extZ_nat])⟩

/-- C33 `support` lists the points of the support. -/
theorem support_spec (h : Valid N K r) :
    ∃ l, support N K r = .ok l ∧ l.Nodup ∧ ∀ k, k ∈ l ↔ k ∈ Supp K r := by
  refine ⟨_, by simp only [support, validate_ok h, ok_bind]; rfl, py.nodup_range _ _, fun k => ?_⟩
  rw [py.mem_range]
  obtain ⟨h1, h2, h3, h4⟩ := h
  simp only [Supp, Set.mem_setOf_eq]
  split_ifs <;> omega

/-- C33 `support_pmf` returns the support and the probabilities at its points, which add up to 1. -/
theorem supportPmf_spec (h : Valid N K r) :
    ∃ l p, supportPmf N K r = .ok (l, p.map fin) ∧ l.Nodup ∧ (∀ k, k ∈ l ↔ k ∈ Supp K r) ∧
      List.Forall₂ (fun k x => pmf k N K r = .ok (fin x)) l p ∧ p.sum = 1 := by
  obtain ⟨l, e, hnd, hm⟩ := support_spec h
  obtain ⟨-, f, hf, -, hz, hs⟩ := isPmf h
  refine ⟨l, l.map f, ?_, hnd, hm, ?_, ?_⟩
  · have e2 : (l.mapM fun k => pmf k N K r) = .ok ((l.map f).map fin) := by
      rw [List.map_map]
      exact py.mapM_fin _ fun k _ => hf.1 k (Set.mem_univ k)
    have e3 : py.range 0 (if r = 0 then 1 else K + 1) = l := by
      simp only [support, validate_ok h, ok_bind, pure_eq_ok] at e
      injection e
    show (do
      validate N K r
      let p ← (py.range 0 (if r = 0 then 1 else K + 1)).mapM fun k => pmf k N K r
      return (py.range 0 (if r = 0 then 1 else K + 1), p)) = _
    rw [validate_ok h, ok_bind, e3, e2, ok_bind]; rfl
  · rw [List.forall₂_map_right_iff, List.forall₂_same]
    exact fun k _ => hf.1 k (Set.mem_univ k)
  · have : HasSum f (∑ k ∈ l.toFinset, f k) :=
      hasSum_sum_of_ne_finset_zero fun k hk => hz k fun hk' => hk (by simpa using (hm k).2 hk')
    rw [← List.sum_toFinset f hnd]
    exact this.unique hs

/-- C33, C07 parameters outside the domain are rejected by every function. -/
theorem rejects (h : ¬ Valid N K r) (k : ℤ) :
    pmf k N K r = .error .valueError ∧ logpmf k N K r = .error .valueError ∧
    cdf k N K r = .error .valueError ∧ sf k N K r = .error .valueError ∧
    support N K r = .error .valueError ∧ supportPmf N K r = .error .valueError ∧
    mean N K r = .error .valueError ∧ var N K r = .error .valueError ∧
    mode N K r = .error .valueError := by
  simp [pmf, logpmf, cdf, sf, support, supportPmf, mean, var, mode, validate_bad h]

theorem cdf_sum (h : Valid N K r) (k : ℤ) :
    ∃ f, Mass Set.univ (fun k => pmf k N K r) f ∧ HasSum f 1 ∧ ∃ c : ℝ,
      cdf k N K r = .ok (fin c) ∧ sf k N K r = .ok (fin (1 - c)) ∧
      HasSum (fun j => if j ≤ k then f j else 0) c := by
  obtain ⟨-, f, hf, -, hz, hs⟩ := isPmf h
  refine ⟨f, hf, hs, ?_⟩
  have hv := validate_ok h
  by_cases h0 : k < 0
  · refine ⟨0, by simp [cdf, hv, h0], by simp [sf, hv, h0], ?_⟩
    exact hasSum_le_neg (fun j hj => hz j fun hh => by have := hh.1; omega) h0
  by_cases h1 : k ≥ K
  · refine ⟨1, by simp [cdf, hv, h0, h1], by simp [sf, hv, h0, h1], ?_⟩
    refine hasSum_of hs (fun j => ?_) rfl
    by_cases hj : j ≤ k
    · rw [if_pos hj]
    · rw [if_neg hj, hz j fun hh => by have := hh.2.1; omega]
  -- inside
  obtain ⟨k, rfl⟩ := Int.eq_ofNat_of_zero_le (not_lt.1 h0)
  have key : ∃ c : ℝ, hypergeometric.sf (r - 1) N (N - K) (k + r) = .ok (fin c) ∧
      hypergeometric.validate N (N - K) (k + r) = .ok () ∧
      HasSum (fun j : ℤ => if j ≤ k then f j else 0) c := by
    have hfz : ∀ j < 0, f j = 0 := fun j hj => hz j fun hh => by have := hh.1; omega
    have ef : ∀ (g : ℕ → ℝ), (∀ j : ℕ, pmf j N K r = .ok (fin (g j))) →
        HasSum (fun j : ℤ => if j ≤ (k:ℤ) then f j else 0) (∑ j ∈ Finset.range (k + 1), g j) := by
      intro g hg
      have := hasSum_le hfz k
      refine hasSum_of this (fun _ => rfl) (Finset.sum_congr rfl fun j _ => ?_)
      have := (hg j).symm.trans (hf.1 j (Set.mem_univ _))
      injection this with this; injection this
    clear hf hs hz hv h0 hfz
    revert h1 ef
    refine of_valid (P := fun N K r => ¬ (k:ℤ) ≥ K → (∀ (g : ℕ → ℝ), (∀ j : ℕ, pmf j N K r = .ok (fin (g j))) →
        HasSum (fun j : ℤ => if j ≤ (k:ℤ) then f j else 0) (∑ j ∈ Finset.range (k + 1), g j)) →
        ∃ c : ℝ, hypergeometric.sf (r - 1) N (N - K) (k + r) = .ok (fin c) ∧
      hypergeometric.validate N (N - K) (k + r) = .ok () ∧
      HasSum (fun j : ℤ => if j ≤ k then f j else 0) c) h (fun K B => ?_) (fun s b K => ?_)
    · intro hk ef
      obtain ⟨c, e1, e2⟩ := hypergeometric.sf_eval (K := B) (M := K) (n := k) (j := 0) (by omega)
        (by omega)
      have hv := hypergeometric.validate_ok (N := B + K) (K := B) (n := k) (by omega) (by omega)
      have a1 : ((K + B : ℕ) : ℤ) = ((B + K : ℕ) : ℤ) := by omega
      have a2 : ((B + K : ℕ) : ℤ) - K = B := by omega
      have a3 : (k:ℤ) + 0 = k := by omega
      have hc : c = 1 := by
        simp only [zero_add] at e2
        exact e2.unique (hypergeometric.H_sum (by omega))
      have e3 := ef D fun j => (pmf_zero j).trans (by rw [extZ_nat])
      refine ⟨c, ?_, ?_, ?_⟩
      · rw [a1, a2, a3]; exact e1
      · rw [a1, a2, a3]; exact hv
      · refine hasSum_of e3 (fun _ => rfl) ?_
        have := Finset.sum_eq_single (f := D) (s := Finset.range (k + 1)) 0 (fun j _ hj => if_neg hj)
          (by simp)
        rw [hc, this]
        rfl
    · intro hk ef
      obtain ⟨c, e1, e2⟩ := hypergeometric.sf_eval (K := s + 1 + b) (M := K) (n := k + s + 1)
        (j := s + 1) (by omega) (by omega)
      have hv := hypergeometric.validate_ok (N := s + 1 + b + K) (K := s + 1 + b) (n := k + s + 1)
        (by omega) (by omega)
      have a1 : ((K + (s + 1 + b) : ℕ) : ℤ) = ((s + 1 + b + K : ℕ) : ℤ) := by omega
      have a2 : ((s + 1 + b + K : ℕ) : ℤ) - K = ((s + 1 + b : ℕ) : ℤ) := by omega
      have a3 : (k:ℤ) + ((s + 1 : ℕ) : ℤ) = ((k + s + 1 : ℕ) : ℤ) := by omega
      have e3 := ef (Q s b K) fun j => (pmf_succ j).trans (by rw [extZ_nat])
      have e4 := Q_sum_le (s := s) (b := b) (K := K) (k := k) (by omega)
      refine ⟨c, ?_, ?_, ?_⟩
      · rw [a1, a2, a3]; exact e1
      · rw [a1, a2, a3]; exact hv
      · exact hasSum_of e3 (fun _ => rfl) (e2.unique e4)
  obtain ⟨c, e, hv2, hc⟩ := key
  refine ⟨c, ?_, ?_, hc⟩
  · simp only [cdf, hv, ok_bind, if_neg h0, if_neg h1, e]
  · simp only [sf, hv, ok_bind, if_neg h0, if_neg h1, hypergeometric.cdf, hv2, e, pure_eq_ok, one_def,
      fin_sub]

/-- C34 `cdf(k)` is the sum of the probabilities of `0, ..., k`, for every integer `k`. -/
theorem isSumCdf (h : Valid N K r) :
    IsSumCdf Set.univ Set.univ (fun k => pmf k N K r) (fun k => cdf k N K r) := by
  obtain ⟨-, f, hf, -⟩ := isPmf h
  refine ⟨f, hf, fun k _ => ?_⟩
  obtain ⟨f', hf', -, c, e, -, hc⟩ := cdf_sum h k
  obtain rfl : f = f' := funext fun j => by
    have := (hf.1 j (Set.mem_univ j)).symm.trans (hf'.1 j (Set.mem_univ j))
    injection this with this; injection this
  exact ⟨c, e, hc⟩

/-- C34 `sf(k)` is the sum of the probabilities of `k+1, k+2, ...`, for every integer `k`. -/
theorem isSumSf (h : Valid N K r) :
    IsSumSf Set.univ Set.univ (fun k => pmf k N K r) (fun k => sf k N K r) := by
  obtain ⟨-, f, hf, -, -, h1⟩ := isPmf h
  refine ⟨f, hf, fun k _ => ?_⟩
  obtain ⟨f', hf', -, c, -, e, hc⟩ := cdf_sum h k
  obtain rfl : f = f' := funext fun j => by
    have := (hf.1 j (Set.mem_univ j)).symm.trans (hf'.1 j (Set.mem_univ j))
    injection this with this; injection this
  exact ⟨_, e, hasSum_gt h1 hc⟩

/-- C35 for `untilnbad >= 1` `logpmf` is the logarithm of `pmf`, `-inf` outside the support. -/
theorem isLogPmf (h : Valid N K r) (hr : 0 < r) :
    IsLogPmf Set.univ (fun k => pmf k N K r) (fun k => logpmf k N K r) := by
  intro k hk
  clear hk
  revert hr
  refine of_valid (P := fun N K r => 0 < r → ∃ x : ℝ, 0 ≤ x ∧ pmf k N K r = .ok (fin x) ∧
    logpmf k N K r = .ok (if x = 0 then ninf else fin (Real.log x))) h (fun K B h => absurd h (lt_irrefl 0))
    (fun s b K _ => ?_)
  have hv := validate_ok (valid_nat s b K)
  by_cases h0 : k < 0 ∨ k > (K:ℤ)
  · refine ⟨0, le_rfl, ?_, ?_⟩
    · simp only [pmf, hv, ok_bind, if_pos h0, pure_eq_ok, zero_def]
    · simp only [logpmf, hv, ok_bind, if_pos h0, pure_eq_ok, if_true]
  · obtain ⟨k, rfl⟩ := Int.eq_ofNat_of_zero_le (show 0 ≤ k by omega)
    have hk : k ≤ K := by omega
    have hp := Q_pos (s := s) (b := b) hk
    refine ⟨_, hp.le, (pmf_succ _).trans (by rw [extZ_nat]), ?_⟩
    have l1 := fun_.logbinomial_eq (n := k + s) (k := k) (by omega)
    have l2 := fun_.logbinomial_eq (n := b + K - k) (k := K - k) (by omega)
    have l3 := fun_.logbinomial_eq (n := K + (s + 1 + b)) (k := K) (by omega)
    have c1 : (0:ℝ) < (k + s).choose k := hypergeometric.choose_posR (by omega)
    have c2 : (0:ℝ) < (b + K - k).choose (K - k) := hypergeometric.choose_posR (by omega)
    have c3 := C_pos s b K
    rw [if_neg hp.ne']
    simp only [logpmf, hv, ok_bind, if_neg h0, ofInt_def]
    rw [show (k:ℤ) + ((s + 1 : ℕ) : ℤ) - 1 = ((k + s : ℕ) : ℤ) by omega,
        show ((K + (s + 1 + b) : ℕ) : ℤ) - ((s + 1 : ℕ) : ℤ) - k = ((b + K - k : ℕ) : ℤ) by omega,
        show (K:ℤ) - k = ((K - k : ℕ) : ℤ) by omega]
    simp only [Int.cast_natCast, l1, l2, l3, ok_bind, pure_eq_ok, mp.fsum_cons, mp.fsum_nil, fin_add,
      neg_fin]
    rw [Q, A, if_pos hk, Nat.cast_mul, Real.log_div (mul_pos c1 c2).ne' c3.ne',
      Real.log_mul c1.ne' c2.ne']
    congr 2; ring

/-- C35 ... but for `untilnbad = 0` `logpmf` raises ValueError at `k = 0`, where `pmf` is 1. -/
theorem logpmf_zero {N K : ℤ} (h : Valid N K 0) :
    pmf 0 N K 0 = .ok 1 ∧ logpmf 0 N K 0 = .error .valueError := by
  have hv := validate_ok h
  have hK := h.1
  refine of_valid (P := fun N K r => r = 0 → 0 ≤ K → validate N K r = .ok () →
    pmf 0 N K r = .ok 1 ∧ logpmf 0 N K r = .error .valueError) h
    (fun K B _ _ hv => ⟨(pmf_zero 0).trans (by simp [extZ, D]), ?_⟩)
    (fun s b K e => absurd e (by omega)) rfl hK hv
  have h0 : ¬ ((0:ℤ) < 0 ∨ (0:ℤ) > K) := by omega
  have l1 : fun_.logbinomial (ofInt (0 + 0 - 1)) (ofInt 0) = .error .valueError := by
    simp [fun_.logbinomial]
  simp only [logpmf, hv, ok_bind, if_neg h0, l1]
  rfl

theorem mean_eval (h : Valid N K r) : mean N K r = .ok (fin (r * K / (N - K + 1))) := by
  have : (((N - K + 1 : ℤ)) : ℝ) ≠ 0 := by
    have h2 := h.2.1
    exact_mod_cast (by omega : N - K + 1 ≠ 0)
  simp only [mean, validate_ok h, ok_bind, ofInt_def, fin_mul, fin_div _ this]
  push_cast
  rfl

theorem var_eval (h : Valid N K r) : var N K r = .ok (fin (r * (N + 1) * K *
    (1 - r / (N - K + 1)) / (N - K + 1) / (N - K + 2))) := by
  have h1 : (((N - K + 1 : ℤ)) : ℝ) ≠ 0 := by
    have h2 := h.2.1
    exact_mod_cast (by omega : N - K + 1 ≠ 0)
  have h2 : (((N - K + 2 : ℤ)) : ℝ) ≠ 0 := by
    have h2 := h.2.1
    exact_mod_cast (by omega : N - K + 2 ≠ 0)
  simp only [var, validate_ok h, ok_bind, ofInt_def, fin_mul, fin_div _ h1, fin_div _ h2, one_def,
    fin_sub]
  push_cast
  rfl

theorem moments (h : Valid N K r) : ∃ f, Mass Set.univ (fun k => pmf k N K r) f ∧ HasSum f 1 ∧
    HasSum (fun k : ℤ => (k:ℝ) * f k) (r * K / (N - K + 1)) ∧
    HasSum (fun k : ℤ => (k:ℝ) * ((k:ℝ) - 1) * f k)
      (r * (r + 1) * K * (K - 1) / ((N - K + 1) * (N - K + 2))) := by
  refine of_valid (P := fun N K r => ∃ f, Mass Set.univ (fun k => pmf k N K r) f ∧ HasSum f 1 ∧
    HasSum (fun k : ℤ => (k:ℝ) * f k) ((r:ℝ) * K / (N - K + 1)) ∧
    HasSum (fun k : ℤ => (k:ℝ) * ((k:ℝ) - 1) * f k)
      ((r:ℝ) * (r + 1) * K * (K - 1) / ((N - K + 1) * (N - K + 2)))) h (fun K B => ?_) (fun s b K => ?_)
  · refine ⟨_, mass_univ pmf_zero, hasSum_extZ D_sum, ?_, ?_⟩
    · refine hasSum_of hasSum_zero (fun k => ?_) (by simp)
      revert k
      refine forall_int (fun k => ?_) (fun k hk => by rw [extZ_neg _ hk, mul_zero])
      rcases k with _ | k <;> simp [D, extZ_nat]
      exact Or.inr (by rw [show ((k:ℤ) + 1) = ((k + 1 : ℕ) : ℤ) by push_cast; ring, extZ_nat]; simp [D])
    · refine hasSum_of hasSum_zero (fun k => ?_) (by simp)
      revert k
      refine forall_int (fun k => ?_) (fun k hk => by rw [extZ_neg _ hk, mul_zero])
      rw [extZ_nat, D]
      split_ifs with e
      · simp [e]
      · simp
  · refine ⟨_, mass_univ pmf_succ, hasSum_extZ (Q_sum s b K), ?_, ?_⟩
    · refine hasSum_of (hasSum_int (f := fun k : ℤ => (k:ℝ) * extZ (Q s b K) k) (Q_mean s b K)
        (fun k hk => by rw [extZ_neg _ hk, mul_zero]) fun k => by simp) (fun _ => rfl) ?_
      push_cast
      congr 1; ring
    · refine hasSum_of (hasSum_int (f := fun k : ℤ => (k:ℝ) * ((k:ℝ) - 1) * extZ (Q s b K) k)
        (Q_mean2 s b K) (fun k hk => by rw [extZ_neg _ hk, mul_zero]) fun k => by simp) (fun _ => rfl) ?_
      push_cast
      congr 1 <;> ring

/-- C37 `mean` is the expected value. -/
theorem isMean (h : Valid N K r) : IsDMean Set.univ (fun k => pmf k N K r) (mean N K r) := by
  obtain ⟨f, hf, -, hm, -⟩ := moments h
  exact ⟨f, _, hf, mean_eval h, hm⟩

/-- C37 `var` is the variance. -/
theorem isVar (h : Valid N K r) :
    IsDVar Set.univ (fun k => pmf k N K r) (mean N K r) (var N K r) := by
  obtain ⟨f, hf, h1, hm, h2⟩ := moments h
  refine ⟨f, _, _, hf, mean_eval h, var_eval h, hm,
    hasSum_of (hasSum_var h1 hm h2) (fun _ => rfl) ?_⟩
  have hN : (0:ℝ) ≤ (N:ℝ) - K := by
    have := h.2.1
    exact_mod_cast (by omega : 0 ≤ N - K)
  have d1 : (N:ℝ) - K + 1 ≠ 0 := by linarith
  have d2 : (N:ℝ) - K + 2 ≠ 0 := by linarith
  field_simp
  ring

/-- C36 `mode` is the smallest most probable value, unless there is exactly one bad item and drawing
stops at it (`mode_fails`). -/
theorem isMode (h : Valid N K r) (hb : ¬ (r = 1 ∧ N - K = 1 ∧ 0 < K)) :
    IsDMode Set.univ (fun k => pmf k N K r) (mode N K r) := by
  revert hb
  refine of_valid (P := fun N K r => ¬ (r = 1 ∧ N - K = 1 ∧ 0 < K) →
    IsDMode Set.univ (fun k => pmf k N K r) (mode N K r)) h (fun K B _ => ?_) (fun s b K hb => ?_)
  · have hv := validate_ok (N := ((K + B : ℕ) : ℤ)) (K := K) (r := 0)
      ⟨by omega, by omega, le_rfl, by omega⟩
    have u := unimodal (f := D) (m := 0) (fun k hk => absurd hk (Nat.not_lt_zero k))
      (fun k _ => by unfold D; split_ifs <;> simp_all) (by simp [D])
    exact ⟨_, (0:ℕ), mass_univ pmf_zero, by simp only [mode, hv, ok_bind]; simp, Set.mem_univ _, fun j => (u j).1,
      fun j => (u j).2⟩
  · have hv := validate_ok (valid_nat s b K)
    have main : ∀ m : ℕ, m ≤ K → mode ((K + (s + 1 + b) : ℕ) : ℤ) K ((s + 1 : ℕ) : ℤ) = .ok (m:ℤ) →
        (∀ k : ℕ, k < m → k < K → (k:ℝ) * (s + b) < (s + 1) * (K + 1) - (K + s + 1 + b)) →
        (∀ k : ℕ, m ≤ k → k < K → ((s:ℝ) + 1) * (K + 1) - (K + s + 1 + b) ≤ k * (s + b)) →
        IsDMode Set.univ (fun k => pmf k ((K + (s + 1 + b) : ℕ) : ℤ) K ((s + 1 : ℕ) : ℤ))
          (mode ((K + (s + 1 + b) : ℕ) : ℤ) K ((s + 1 : ℕ) : ℤ)) := by
      intro m hm e hup hdown
      have up : ∀ k < m, Q s b K k < Q s b K (k + 1) := by
        intro k hk
        have hkK : k < K := by omega
        have hkK' : (k:ℝ) + 1 ≤ K := by exact_mod_cast hkK
        have rr := Q_ratio (s := s) (b := b) hkK
        have u := hup k hk hkK
        have q : (0:ℝ) < ((k:ℝ) + 1) * (b + K - k) := by
          have : (0:ℝ) ≤ b := Nat.cast_nonneg b
          exact mul_pos (by positivity) (by linarith)
        have key : ((k:ℝ) + 1) * (b + K - k) < (k + s + 1) * (K - k) := by nlinarith
        have : Q s b K k * (((k:ℝ) + 1) * (b + K - k)) <
            Q s b K (k + 1) * (((k:ℝ) + 1) * (b + K - k)) := by
          rw [rr]; exact mul_lt_mul_of_pos_left key (Q_pos hkK.le)
        exact lt_of_mul_lt_mul_right this q.le
      have down : ∀ k ≥ m, Q s b K (k + 1) ≤ Q s b K k := by
        intro k hk
        by_cases hkK : k < K
        · have hkK' : (k:ℝ) + 1 ≤ K := by exact_mod_cast hkK
          have rr := Q_ratio (s := s) (b := b) hkK
          have u := hdown k hk hkK
          have q : (0:ℝ) < ((k:ℝ) + 1) * (b + K - k) := by
            have : (0:ℝ) ≤ b := Nat.cast_nonneg b
            exact mul_pos (by positivity) (by linarith)
          have key : (k + s + 1) * (K - k) ≤ ((k:ℝ) + 1) * (b + K - k) := by nlinarith
          have : Q s b K (k + 1) * (((k:ℝ) + 1) * (b + K - k)) ≤
              Q s b K k * (((k:ℝ) + 1) * (b + K - k)) := by
            rw [rr]; exact mul_le_mul_of_nonneg_left key Q_nonneg
          exact le_of_mul_le_mul_right this q
        · rw [Q_zero (by omega)]; exact Q_nonneg
      have u := unimodal up down (Q_pos hm)
      exact ⟨_, m, mass_univ pmf_succ, e, Set.mem_univ _, fun j => (u j).1, fun j => (u j).2⟩
    by_cases hK : K = 0
    · subst hK
      exact main 0 le_rfl (by simp only [mode, hv, ok_bind]; simp) (fun k hk => absurd hk (Nat.not_lt_zero k))
        (fun k _ hk => absurd hk (Nat.not_lt_zero k))
    have g1 : ¬ (((s + 1 : ℕ) : ℤ) = 0 ∨ (K:ℤ) = 0) := by omega
    by_cases c1 : ((K + (s + 1 + b) : ℕ) : ℤ) > ((s + 1 : ℕ) : ℤ) * ((K:ℤ) + 1)
    · have c1' : ((s:ℝ) + 1) * (K + 1) < K + s + 1 + b := by
        have : ((((s + 1 : ℕ) : ℤ) * ((K:ℤ) + 1) : ℤ) : ℝ) < (((K + (s + 1 + b) : ℕ) : ℤ) : ℝ) :=
          Int.cast_lt.2 c1
        push_cast at this; linarith
      refine main 0 (Nat.zero_le _) ?_ (fun k hk => absurd hk (Nat.not_lt_zero k)) (fun k _ _ => ?_)
      · simp only [mode, hv, ok_bind, if_neg g1, if_pos c1]; rfl
      · have : (0:ℝ) ≤ (k:ℝ) * (s + b) := by positivity
        linarith
    have c1' : (K:ℝ) + s + 1 + b ≤ ((s:ℝ) + 1) * (K + 1) := by
      have : (((K + (s + 1 + b) : ℕ) : ℤ) : ℝ) ≤ ((((s + 1 : ℕ) : ℤ) * ((K:ℤ) + 1) : ℤ) : ℝ) :=
        Int.cast_le.2 (not_lt.1 c1)
      push_cast at this; linarith
    by_cases c2 : (K:ℤ) + ((s + 1 : ℕ) : ℤ) - 1 >
        (((K + (s + 1 + b) : ℕ) : ℤ) - ((K:ℤ) + ((s + 1 : ℕ) : ℤ) - 1)) * K
    · have c2' : ((b:ℝ) + 1) * K < K + s := by
        have : (((((K + (s + 1 + b) : ℕ) : ℤ) - ((K:ℤ) + ((s + 1 : ℕ) : ℤ) - 1)) * K : ℤ) : ℝ) <
            (((K:ℤ) + ((s + 1 : ℕ) : ℤ) - 1 : ℤ) : ℝ) := Int.cast_lt.2 c2
        push_cast at this; linarith
      refine main K le_rfl ?_ (fun k _ hk => ?_) (fun k h1 h2 => by omega)
      · simp only [mode, hv, ok_bind, if_neg g1, if_neg c1, if_pos c2]; rfl
      · have hk' : (k:ℝ) + 1 ≤ K := by exact_mod_cast hk
        have : (0:ℝ) ≤ (s:ℝ) + b := by positivity
        nlinarith
    have c2' : (K:ℝ) + s ≤ ((b:ℝ) + 1) * K := by
      have : (((K:ℤ) + ((s + 1 : ℕ) : ℤ) - 1 : ℤ) : ℝ) ≤
          (((((K + (s + 1 + b) : ℕ) : ℤ) - ((K:ℤ) + ((s + 1 : ℕ) : ℤ) - 1)) * K : ℤ) : ℝ) :=
        Int.cast_le.2 (not_lt.1 c2)
      push_cast at this; linarith
    have sb : 0 < s + b := by
      by_contra hc
      exact hb ⟨by omega, by omega, by omega⟩
    have sb' : (0:ℝ) < (s:ℝ) + b := by exact_mod_cast sb
    set x : ℝ := (((s:ℝ) + 1) * (K + 1) - (K + s + 1 + b)) / (s + b) with hx
    have x0 : 0 ≤ x := div_nonneg (by linarith) sb'.le
    have hxm : x * (s + b) = ((s:ℝ) + 1) * (K + 1) - (K + s + 1 + b) := by
      rw [hx, div_mul_cancel₀ _ sb'.ne']
    obtain ⟨m, hm⟩ := Int.eq_ofNat_of_zero_le (Int.ceil_nonneg x0)
    have hmc : (⌈x⌉:ℝ) = m := by rw [hm]; simp
    have e1 := Int.le_ceil x
    have e2 := Int.ceil_lt_add_one x
    rw [hmc] at e1 e2
    refine main m ?_ ?_ (fun k hk _ => ?_) (fun k hk _ => ?_)
    · have : x ≤ ((K - 1 : ℤ) : ℝ) := by
        rw [hx, div_le_iff₀ sb']
        push_cast
        nlinarith
      have := Int.ceil_le.2 this
      omega
    · have d : ((((K + (s + 1 + b) : ℕ) : ℤ) - K - 1 : ℤ) : ℝ) ≠ 0 := by
        push_cast; rw [show (K:ℝ) + (s + 1 + b) - K - 1 = s + b by ring]; exact sb'.ne'
      have ex : ((((s + 1 : ℕ) : ℤ) * ((K:ℤ) + 1) - ((K + (s + 1 + b) : ℕ) : ℤ) : ℤ) : ℝ) /
          ((((K + (s + 1 + b) : ℕ) : ℤ) - K - 1 : ℤ) : ℝ) = x := by
        push_cast; rw [hx]; congr 1 <;> ring
      simp only [mode, hv, ok_bind, if_neg g1, if_neg c1, if_neg c2, ofInt_def, fin_div _ d, ex,
        mp.ceil_fin, py.int_cast, hm]
    · have hk' : (k:ℝ) + 1 ≤ m := by exact_mod_cast hk
      have : (k:ℝ) < x := by linarith
      rw [← hxm]
      exact mul_lt_mul_of_pos_right this sb'
    · have hk' : (m:ℝ) ≤ k := by exact_mod_cast hk
      rw [← hxm]
      exact mul_le_mul_of_nonneg_right (by linarith) sb'.le

/-- C36 ... in that remaining case all values are equally probable and `mode` divides by zero. -/
theorem mode_fails {K : ℤ} (hK : 0 < K) : mode (K + 1) K 1 = .error .zeroDivision := by
  have hv := validate_ok (N := K + 1) (K := K) (r := 1) ⟨by omega, by omega, by omega, by omega⟩
  have g1 : ¬ ((1:ℤ) = 0 ∨ K = 0) := by omega
  have g2 : ¬ (K + 1 > 1 * (K + 1)) := by omega
  have g3 : ¬ (K + 1 - 1 > (K + 1 - (K + 1 - 1)) * K) := by ring_nf; omega
  simp only [mode, hv, ok_bind, if_neg g1, if_neg g2, if_neg g3]
  simp

/-- Non-vacuity: 3 good and 2 bad items, stopping at the second bad one. -/
example : Valid 5 3 2 ∧ pmf 3 5 3 2 = .ok (fin (4 / 10)) := by
  refine ⟨⟨by norm_num, by norm_num, by norm_num, by norm_num⟩, ?_⟩
  have := pmf_succ (s := 1) (b := 0) (K := 3) ((3:ℕ):ℤ)
  rw [extZ_nat] at this
  refine this.trans ?_
  have c : Nat.choose 4 3 = 4 := by decide
  have c2 : Nat.choose 5 3 = 10 := by decide
  simp [Q, A, c, c2]

end Mpsci.negative_hypergeometric
