import Verif.Lemmas.Disc.Hypergeometric
import Verif.Base.PyNum

/-! Properties of the hypergeometric distribution. -/

namespace Mpsci.hypergeometric

open Classical Num Spec fisherExact

/-- Admissible parameters: `ngood` of the `ntotal` items are good, `nsample` items are drawn. -/
def Valid (ntotal ngood nsample : ℤ) : Prop :=
  0 ≤ ngood ∧ ngood ≤ ntotal ∧ 0 ≤ nsample ∧ nsample ≤ ntotal

/-- The support: at most `nsample` and at most `ngood` good items are drawn, and the number of bad items
drawn is at most `ntotal - ngood`. -/
def Supp (ntotal ngood nsample : ℤ) : Set ℤ :=
  {k | 0 ≤ k ∧ k ≤ nsample ∧ k ≤ ngood ∧ nsample - k ≤ ntotal - ngood}

theorem of_valid {N K n : ℤ} (h : Valid N K n) :
    ∃ K' M n' : ℕ, N = ((K' + M : ℕ) : ℤ) ∧ K = K' ∧ n = n' ∧ n' ≤ K' + M := by
  obtain ⟨h1, h2, h3, h4⟩ := h
  exact ⟨K.toNat, (N - K).toNat, n.toNat, by omega, by omega, by omega, by omega⟩

variable {N K n : ℤ}

theorem H_off {K M n k : ℕ} (h : (k:ℤ) ∉ Supp ((K + M : ℕ) : ℤ) K n) : H K M n k = 0 := by
  simp only [Supp, Set.mem_setOf_eq] at h
  apply H_zero
  by_cases h1 : K < k ∨ n < k
  · exact w_zero_of_gt h1
  · exact w_zero_of_lt (by omega)

/-- C33 `pmf` is a probability mass function on the support. -/
theorem isPmf (h : Valid N K n) : IsPmf Set.univ (Supp N K n) fun k => pmf k N K n := by
  obtain ⟨K, M, n, rfl, rfl, rfl, hn⟩ := of_valid h
  refine ⟨Set.subset_univ _, _, mass_univ (pmf_eval hn), ?_, ?_, hasSum_extZ (H_sum hn)⟩
  · exact forall_int (fun k => by rw [extZ_nat]; exact H_nonneg) (fun k hk => by rw [extZ_neg _ hk])
  · exact forall_int (fun k hk => by rw [extZ_nat]; exact H_off hk)
      (fun k hk _ => by rw [extZ_neg _ hk])

/-- C33 every probability in the support is positive: `pmf` is zero exactly outside it. -/
theorem pmf_pos (h : Valid N K n) {k : ℤ} (hk : k ∈ Supp N K n) :
    ∃ r : ℝ, 0 < r ∧ pmf k N K n = .ok (fin r) := by
  obtain ⟨K, M, n, rfl, rfl, rfl, hn⟩ := of_valid h
  obtain ⟨h1, h2, h3, h4⟩ := hk
  obtain ⟨k, rfl⟩ := Int.eq_ofNat_of_zero_le h1
  exact ⟨H K M n k, H_pos hn (by omega) (by omega) (by omega), by rw [pmf_eval hn, extZ_nat]⟩

/-- C33 `pmf` is the number of samples of size `nsample` with exactly `k` good items, divided by the
number of all samples. -/
theorem pmf_counts (h : Valid N K n) {k : ℤ} (hk : k ∈ Supp N K n) :
    pmf k N K n = .ok (fin ((K.toNat.choose k.toNat : ℝ) * ((N - K).toNat.choose (n - k).toNat) /
      N.toNat.choose n.toNat)) := by
  obtain ⟨K, M, n, rfl, rfl, rfl, hn⟩ := of_valid h
  obtain ⟨h1, h2, h3, h4⟩ := hk
  obtain ⟨k, rfl⟩ := Int.eq_ofNat_of_zero_le h1
  have hk : k ≤ n := by omega
  rw [pmf_eval hn, extZ_nat, H, w, if_pos hk, show ((K + M : ℕ) : ℤ) - K = M by omega,
    show (n:ℤ) - k = ((n - k : ℕ) : ℤ) by omega]
  simp only [Int.toNat_natCast, Nat.cast_mul]

/-- C33 `support` lists the points of the support. -/
theorem support_spec (h : Valid N K n) :
    ∃ l, support N K n = .ok l ∧ l.Nodup ∧ ∀ k, k ∈ l ↔ k ∈ Supp N K n := by
  obtain ⟨K, M, n, rfl, rfl, rfl, hn⟩ := of_valid h
  have hv := validate_ok (N := K + M) (K := K) (by omega) hn
  refine ⟨_, by simp only [support, hv, ok_bind]; rfl, py.nodup_range _ _, fun k => ?_⟩
  rw [py.mem_range]
  simp only [Supp, Set.mem_setOf_eq]
  omega

/-- C33 `support_pmf` returns the support and the probabilities at its points, which add up to 1. -/
theorem supportPmf_spec (h : Valid N K n) :
    ∃ l p, supportPmf N K n = .ok (l, p.map fin) ∧ l.Nodup ∧ (∀ k, k ∈ l ↔ k ∈ Supp N K n) ∧
      List.Forall₂ (fun k r => pmf k N K n = .ok (fin r)) l p ∧ p.sum = 1 := by
  obtain ⟨l, e, hnd, hm⟩ := support_spec h
  obtain ⟨-, f, hf, -, hz, hs⟩ := isPmf h
  refine ⟨l, l.map f, ?_, hnd, hm, ?_, ?_⟩
  · have e2 : (l.mapM fun k => pmf k N K n) = .ok ((l.map f).map fin) := by
      rw [List.map_map]
      exact py.mapM_fin _ fun k _ => hf.1 k (Set.mem_univ k)
    show (do
      let sup ← support N K n
      let p ← sup.mapM fun k => pmf k N K n
      return (sup, p)) = _
    rw [e, ok_bind, e2, ok_bind]; rfl
  · rw [List.forall₂_map_right_iff, List.forall₂_same]
    exact fun k _ => hf.1 k (Set.mem_univ k)
  · have : HasSum f (∑ k ∈ l.toFinset, f k) :=
      hasSum_sum_of_ne_finset_zero fun k hk => hz k fun hk' => hk (by simpa using (hm k).2 hk')
    rw [← List.sum_toFinset f hnd]
    exact this.unique hs

/-- C33, C07 parameters outside the domain are rejected by every function. -/
theorem rejects (h : ¬ Valid N K n) (k : ℤ) :
    pmf k N K n = .error .valueError ∧ logpmf k N K n = .error .valueError ∧
    cdf k N K n = .error .valueError ∧ sf k N K n = .error .valueError ∧
    support N K n = .error .valueError ∧ supportPmf N K n = .error .valueError ∧
    mean N K n = .error .valueError ∧ var N K n = .error .valueError ∧
    mode N K n = .error .valueError := by
  have hv : validate N K n = .error .valueError := by
    apply validate_bad
    unfold Valid at h
    omega
  simp [pmf, logpmf, cdf, sf, support, supportPmf, mean, var, mode, hv]

theorem tail (h : Valid N K n) {k : ℤ} (hk : -1 ≤ k ∧ n - (N - K) - 1 ≤ k) :
    ∃ f, Mass Set.univ (fun k => pmf k N K n) f ∧ HasSum f 1 ∧ ∃ s : ℝ, sf k N K n = .ok (fin s) ∧
      HasSum (fun j => if k < j then f j else 0) s := by
  obtain ⟨K, M, n, rfl, rfl, rfl, hn⟩ := of_valid h
  obtain ⟨j, hj⟩ := Int.eq_ofNat_of_zero_le (show 0 ≤ k + 1 by omega)
  obtain rfl : k = (j:ℤ) - 1 := by omega
  obtain ⟨s, e, hs⟩ := sf_eval (K := K) (M := M) (j := j) hn (by omega)
  refine ⟨_, mass_univ (pmf_eval hn), hasSum_extZ (H_sum hn), s, e, hasSum_gt_shift ?_⟩
  refine hasSum_of hs (fun i => ?_) rfl
  rw [show (j:ℤ) - 1 + 1 + i = ((j + i : ℕ) : ℤ) by push_cast; ring, extZ_nat]

/-- C34 `sf(k)` is the sum of the probabilities of `k+1, k+2, ...`, for every `k` from one below the
support upwards.  For smaller `k` the code evaluates a hypergeometric function with a nonpositive integer
lower parameter, which is not modelled. -/
theorem isSumSf_partial (h : Valid N K n) :
    IsSumSf Set.univ {k | -1 ≤ k ∧ n - (N - K) - 1 ≤ k} (fun k => pmf k N K n)
      (fun k => sf k N K n) := by
  obtain ⟨-, f, hf, -⟩ := isPmf h
  refine ⟨f, hf, fun k hk => ?_⟩
  obtain ⟨g, hg, -, s, e, hs⟩ := tail h hk
  refine ⟨s, e, ?_⟩
  obtain rfl : f = g := funext fun j => by
    have := (hf.1 j (Set.mem_univ j)).symm.trans (hg.1 j (Set.mem_univ j))
    injection this with this; injection this
  exact hs

/-- C34 `cdf(k)` is the sum of the probabilities of `..., k-1, k`, for every `k` from one below the
support upwards (see `isSumSf_partial`). -/
theorem isSumCdf_partial (h : Valid N K n) :
    IsSumCdf Set.univ {k | -1 ≤ k ∧ n - (N - K) - 1 ≤ k} (fun k => pmf k N K n)
      (fun k => cdf k N K n) := by
  obtain ⟨-, f, hf, -, -, h1⟩ := isPmf h
  refine ⟨f, hf, fun k hk => ?_⟩
  obtain ⟨g, hg, -, s, e, hs⟩ := tail h hk
  obtain rfl : f = g := funext fun j => by
    have := (hf.1 j (Set.mem_univ j)).symm.trans (hg.1 j (Set.mem_univ j))
    injection this with this; injection this
  refine ⟨1 - s, ?_, hasSum_le_of_gt h1 hs⟩
  obtain ⟨K, M, n, rfl, rfl, rfl, hn⟩ := of_valid h
  have hv := validate_ok (N := K + M) (K := K) (by omega) hn
  simp only [cdf, hv, ok_bind, e, one_def, fin_sub, pure_eq_ok]

theorem logbeta_nat (a b : ℕ) : fun_.logbeta (ofInt (a + 1)) (ofInt (b + 1)) =
    .ok (fin (-(Real.log (a + b + 1) + Real.log ((a + b).choose a)))) := by
  have ha : (0:ℝ) < a + 1 := by positivity
  have hb : (0:ℝ) < b + 1 := by positivity
  have hab : (0:ℝ) < a + b + 1 := by positivity
  have hc : (0:ℝ) < (a + b).choose a := choose_posR (by omega)
  have e := betaFn_choose a b
  have g1 := Real.Gamma_pos_of_pos ha
  have g2 := Real.Gamma_pos_of_pos hb
  have g3 := Real.Gamma_pos_of_pos (add_pos ha hb)
  have e2 : betaFn (a + 1) (b + 1) = (((a:ℝ) + b + 1) * (a + b).choose a)⁻¹ := by
    exact eq_inv_of_mul_eq_one_left (by linarith)
  simp only [fun_.logbeta, ofInt_def, Int.cast_add, Int.cast_natCast, Int.cast_one, mp.loggamma_pos ha,
    mp.loggamma_pos hb, ok_bind, mp.fsum_cons, mp.fsum_nil, fin_add, add_zero,
    mp.loggamma_pos (add_pos ha hb), fin_sub, pure_eq_ok]
  rw [← Real.log_mul hab.ne' hc.ne', ← Real.log_inv, ← e2, betaFn,
    Real.log_div (mul_pos g1 g2).ne' g3.ne', Real.log_mul g1.ne' g2.ne']

theorem logbeta_pole {a b : ℤ} (h : a = 0 ∧ 0 < b ∨ b = 0 ∧ 0 < a) :
    fun_.logbeta (ofInt a) (ofInt b) = .ok pinf := by
  rcases h with ⟨rfl, h⟩ | ⟨rfl, h⟩
  all_goals
    have h' : (0:ℝ) < _ := Int.cast_pos.2 h
    simp [fun_.logbeta, mp.loggamma, h', h]

theorem logbeta_cases {a b : ℤ} (ha : 0 ≤ a) (hb : 0 ≤ b) (h : 0 < a + b) :
    (0 < a ∧ 0 < b ∧ ∃ r, fun_.logbeta (ofInt a) (ofInt b) = .ok (fin r)) ∨
    ((a = 0 ∨ b = 0) ∧ fun_.logbeta (ofInt a) (ofInt b) = .ok pinf) := by
  by_cases h1 : 0 < a ∧ 0 < b
  · obtain ⟨a, rfl⟩ := Int.eq_ofNat_of_zero_le (show 0 ≤ a by omega)
    obtain ⟨b, rfl⟩ := Int.eq_ofNat_of_zero_le (show 0 ≤ b by omega)
    obtain ⟨a, rfl⟩ : ∃ x, a = x + 1 := ⟨a - 1, by omega⟩
    obtain ⟨b, rfl⟩ : ∃ x, b = x + 1 := ⟨b - 1, by omega⟩
    exact Or.inl ⟨h1.1, h1.2, _, by push_cast; exact logbeta_nat a b⟩
  · exact Or.inr ⟨by omega, logbeta_pole (by omega)⟩

theorem logpmf_mid {a c d k : ℕ} :
    logpmf k ((k + a + (c + d) : ℕ) : ℤ) ((k + a : ℕ) : ℤ) ((k + c : ℕ) : ℤ) =
      .ok (fin (Real.log (H (k + a) (c + d) (k + c) k))) := by
  have hv := validate_ok (N := k + a + (c + d)) (K := k + a) (n := k + c) (by omega) (by omega)
  have l1 : mp.log (ofInt (((k + a + (c + d) : ℕ) : ℤ) + 1)) =
      .ok (fin (Real.log (k + a + (c + d) + 1))) := by
    rw [ofInt_def, mp.log_pos (by push_cast; positivity)]; push_cast; rfl
  have l3 : mp.log (ofInt (((k + a : ℕ) : ℤ) + 1)) = .ok (fin (Real.log (k + a + 1))) := by
    rw [ofInt_def, mp.log_pos (by push_cast; positivity)]; push_cast; rfl
  have l4 : mp.log (ofInt (((k + a + (c + d) : ℕ) : ℤ) - ((k + a : ℕ) : ℤ) + 1)) =
      .ok (fin (Real.log (c + d + 1))) := by
    rw [show ((k + a + (c + d) : ℕ) : ℤ) - ((k + a : ℕ) : ℤ) + 1 = ((c + d + 1 : ℕ) : ℤ) by omega,
      ofInt_def, mp.log_pos (by push_cast; positivity)]; push_cast; rfl
  have l2 := logbeta_nat (a + d) (k + c)
  have l5 := logbeta_nat k a
  have l6 := logbeta_nat c d
  simp only [logpmf, hv, ok_bind, l1, l3, l4]
  rw [show ((k + a + (c + d) : ℕ) : ℤ) - ((k + c : ℕ) : ℤ) + 1 = ((a + d : ℕ) : ℤ) + 1 by omega,
    l2, show ((k + a : ℕ) : ℤ) - k + 1 = (a:ℤ) + 1 by omega, l5,
    show ((k + c : ℕ) : ℤ) - k + 1 = (c:ℤ) + 1 by omega,
    show ((k + a + (c + d) : ℕ) : ℤ) - ((k + a : ℕ) : ℤ) - ((k + c : ℕ) : ℤ) + k + 1 = (d:ℤ) + 1 by
      omega, l6]
  have c1 : (0:ℝ) < (k + a).choose k := choose_posR (by omega)
  have c2 : (0:ℝ) < (c + d).choose c := choose_posR (by omega)
  have c3 : (0:ℝ) < (k + a + (c + d)).choose (k + c) := choose_posR (by omega)
  have c4 : (a + d + (k + c)).choose (a + d) = (k + a + (c + d)).choose (k + c) := by
    rw [← Nat.choose_symm_of_eq_add (show k + a + (c + d) = (a + d) + (k + c) by ring)]
    congr 1; ring
  have eH : H (k + a) (c + d) (k + c) k =
      ((k + a).choose k : ℝ) * (c + d).choose c / (k + a + (c + d)).choose (k + c) := by
    rw [H, w, if_pos (by omega), show k + c - k = c by omega]; push_cast; rfl
  have e0 : (((a + d : ℕ) : ℝ) + ((k + c : ℕ) : ℝ) + 1) = k + a + (c + d) + 1 := by push_cast; ring
  simp only [ok_bind, pure_eq_ok, mp.fsum_cons, mp.fsum_nil, fin_add, neg_fin]
  rw [eH, Real.log_div (by positivity) c3.ne', Real.log_mul c1.ne' c2.ne', c4, e0]
  congr 2; ring

/-- C35 `logpmf` is the logarithm of `pmf` on the support, and `-inf` at the first points outside it on
both sides.  Further out the code evaluates `loggamma` at a negative number (`logpmf_far`). -/
theorem isLogPmf_partial (h : Valid N K n) :
    IsLogPmf {k | -1 ≤ k ∧ n - (N - K) - 1 ≤ k ∧ k ≤ n + 1 ∧ k ≤ K + 1}
      (fun k => pmf k N K n) (fun k => logpmf k N K n) := by
  obtain ⟨K, M, n, rfl, rfl, rfl, hn⟩ := of_valid h
  rintro k ⟨h1, h2, h3, h4⟩
  by_cases hs : k ∈ Supp ((K + M : ℕ) : ℤ) K n
  · obtain ⟨q1, q2, q3, q4⟩ := hs
    obtain ⟨k, rfl⟩ := Int.eq_ofNat_of_zero_le q1
    obtain ⟨a, rfl⟩ := Nat.exists_eq_add_of_le (show k ≤ K by omega)
    obtain ⟨c, rfl⟩ := Nat.exists_eq_add_of_le (show k ≤ n by omega)
    obtain ⟨d, rfl⟩ := Nat.exists_eq_add_of_le (show c ≤ M by omega)
    have hp := H_pos (K := k + a) (M := c + d) (n := k + c) (k := k) hn (by omega) (by omega)
      (by omega)
    refine ⟨_, hp.le, (pmf_eval hn k).trans (by rw [extZ_nat]), ?_⟩
    simp only
    rw [if_neg hp.ne', logpmf_mid]
  · refine ⟨0, le_rfl, (pmf_eval hn k).trans ?_, ?_⟩
    · congr 2
      revert k
      exact forall_int (fun k _ _ _ _ hk => by rw [extZ_nat]; exact H_off hk)
        (fun k hk _ _ _ _ _ => extZ_neg _ hk)
    · have hv := validate_ok (N := K + M) (K := K) (by omega) hn
      rw [if_pos rfl]
      have l1 : mp.log (ofInt (((K + M : ℕ) : ℤ) + 1)) = .ok (fin (Real.log ((K + M : ℕ) + 1))) := by
        rw [ofInt_def, mp.log_pos (by push_cast; positivity)]; push_cast; rfl
      have l3 : mp.log (ofInt ((K : ℤ) + 1)) = .ok (fin (Real.log (K + 1))) := by
        rw [ofInt_def, mp.log_pos (by push_cast; positivity)]; push_cast; rfl
      have l4 : mp.log (ofInt (((K + M : ℕ) : ℤ) - K + 1)) = .ok (fin (Real.log (M + 1))) := by
        rw [show ((K + M : ℕ) : ℤ) - K + 1 = (M:ℤ) + 1 by omega, ofInt_def,
          mp.log_pos (by push_cast; positivity)]; push_cast; rfl
      obtain ⟨q, hq⟩ := Nat.exists_eq_add_of_le hn
      have l2 := logbeta_nat q n
      rw [show (q:ℤ) + 1 = ((K + M : ℕ) : ℤ) - n + 1 by omega] at l2
      have c5 := logbeta_cases (a := k + 1) (b := (K:ℤ) - k + 1) (by omega) (by omega) (by omega)
      have c6 := logbeta_cases (a := (n:ℤ) - k + 1) (b := ((K + M : ℕ) : ℤ) - K - n + k + 1)
        (by omega) (by omega) (by omega)
      simp only [Supp, Set.mem_setOf_eq] at hs
      simp only [logpmf, hv, ok_bind, l1, l2, l3, l4]
      rcases c5 with ⟨p1, p2, r5, e5⟩ | ⟨p1, e5⟩ <;> rcases c6 with ⟨p3, p4, r6, e6⟩ | ⟨p3, e6⟩
      · omega
      · simp only [e5, e6, ok_bind]; simp
      · simp only [e5, e6, ok_bind]; simp
      · simp only [e5, e6, ok_bind]; simp

/-- C35 further below the support `logpmf` leaves the real numbers, where `pmf` returns 0. -/
theorem logpmf_far (h : Valid N K n) {k : ℤ} (hk : k < -1) :
    pmf k N K n = .ok 0 ∧ logpmf k N K n = .error .complexResult := by
  obtain ⟨K, M, n, rfl, rfl, rfl, hn⟩ := of_valid h
  constructor
  · rw [pmf_eval hn, extZ_neg _ (by omega)]; rfl
  · have hv := validate_ok (N := K + M) (K := K) (by omega) hn
    have l1 : mp.log (ofInt (((K + M : ℕ) : ℤ) + 1)) = .ok (fin (Real.log ((K + M : ℕ) + 1))) := by
      rw [ofInt_def, mp.log_pos (by push_cast; positivity)]; push_cast; rfl
    have l3 : mp.log (ofInt ((K : ℤ) + 1)) = .ok (fin (Real.log (K + 1))) := by
      rw [ofInt_def, mp.log_pos (by push_cast; positivity)]; push_cast; rfl
    have l4 : mp.log (ofInt (((K + M : ℕ) : ℤ) - K + 1)) = .ok (fin (Real.log (M + 1))) := by
      rw [show ((K + M : ℕ) : ℤ) - K + 1 = (M:ℤ) + 1 by omega, ofInt_def,
        mp.log_pos (by push_cast; positivity)]; push_cast; rfl
    obtain ⟨q, hq⟩ := Nat.exists_eq_add_of_le hn
    have l2 := logbeta_nat q n
    rw [show (q:ℤ) + 1 = ((K + M : ℕ) : ℤ) - n + 1 by omega] at l2
    have h5 : mp.loggamma (ofInt (k + 1)) = .error .complexResult := by
      have : ((k + 1 : ℤ) : ℝ) < 0 := by exact_mod_cast (by omega : k + 1 < 0)
      simp only [ofInt_def, mp.loggamma, not_lt.2 this.le, this.ne, if_false]
    have l5 : fun_.logbeta (ofInt (k + 1)) (ofInt ((K:ℤ) - k + 1)) = .error .complexResult := by
      simp only [fun_.logbeta, h5]; rfl
    simp only [logpmf, hv, ok_bind, l1, l2, l3, l4, l5]
    rfl

theorem mean_eval {K M n : ℕ} (hn : n ≤ K + M) (hN : 0 < K + M) :
    mean ((K + M : ℕ) : ℤ) K n = .ok (fin (n * K / (K + M))) := by
  have hv := validate_ok (N := K + M) (K := K) (by omega) hn
  have : ((K:ℝ) + M) ≠ 0 := by exact_mod_cast hN.ne'
  simp only [mean, hv, ok_bind]
  simp [fin_div _ this]

/-- C37 `mean` is the expected value, if there are any items. -/
theorem isMean (h : Valid N K n) (hN : 0 < N) :
    IsDMean Set.univ (fun k => pmf k N K n) (mean N K n) := by
  obtain ⟨K, M, n, rfl, rfl, rfl, hn⟩ := of_valid h
  have hN : 0 < K + M := by omega
  exact ⟨_, _, mass_univ (pmf_eval hn), mean_eval hn hN,
    hasSum_int (H_mean hn hN) (fun k hk => by rw [extZ_neg _ hk, mul_zero]) fun k => by simp⟩

/-- C37 `var` is the variance, if there are at least two items. -/
theorem isVar (h : Valid N K n) (hN : 1 < N) :
    IsDVar Set.univ (fun k => pmf k N K n) (mean N K n) (var N K n) := by
  obtain ⟨K, M, n, rfl, rfl, rfl, hn⟩ := of_valid h
  have hN : 1 < K + M := by omega
  have hN' : (1:ℝ) < K + M := by exact_mod_cast hN
  have n1 : ((K:ℝ) + M) ≠ 0 := by linarith
  have n2 : ((K:ℝ) + M - 1) ≠ 0 := by linarith
  have hm : HasSum (fun k : ℤ => (k:ℝ) * extZ (H K M n) k) (n * K / (K + M)) :=
    hasSum_int (H_mean hn (by omega)) (fun k hk => by rw [extZ_neg _ hk, mul_zero]) fun k => by simp
  have h2 := hasSum_int (f := fun k : ℤ => (k:ℝ) * ((k:ℝ) - 1) * extZ (H K M n) k) (H_mean2 hn hN)
    (fun k hk => by rw [extZ_neg _ hk, mul_zero]) fun k => by simp
  have hv := validate_ok (N := K + M) (K := K) (by omega) hn
  refine ⟨_, _, n * (K / (K + M)) * (M / (K + M)) * ((K + M - n) / (K + M - 1)),
    mass_univ (pmf_eval hn), mean_eval hn (by omega), ?_, hm,
    hasSum_of (hasSum_var (hasSum_extZ (H_sum hn)) hm h2) (fun _ => rfl) ?_⟩
  · simp only [var, hv, ok_bind]
    simp [fin_div _ n1, fin_div _ n2]
  · field_simp; ring

/-- C37 ... but with one item `var` divides by zero, and with none `mean` does, although the
distribution is the point mass at 0 or 1. -/
theorem var_one : var 1 1 1 = .error .zeroDivision ∧ var 1 1 0 = .error .zeroDivision ∧
    mean 0 0 0 = .error .zeroDivision ∧ pmf 1 1 1 1 = .ok 1 ∧ pmf 0 0 0 0 = .ok 1 := by
  have p1 := pmf_eval (K := 1) (M := 0) (n := 1) (by omega) ((1:ℕ):ℤ)
  have p2 := pmf_eval (K := 0) (M := 0) (n := 0) (by omega) ((0:ℕ):ℤ)
  rw [extZ_nat] at p1 p2
  refine ⟨?_, ?_, ?_, p1.trans ?_, p2.trans ?_⟩
  · simp [var, validate, fin_div]
  · simp [var, validate, fin_div]
  · simp [mean, validate, fin_div]
  · simp [H, w]
  · simp [H, w]

/-- C36 `mode` is the smallest most probable value. -/
theorem isMode (h : Valid N K n) : IsDMode Set.univ (fun k => pmf k N K n) (mode N K n) := by
  obtain ⟨K, M, n, rfl, rfl, rfl, hn⟩ := of_valid h
  set r : ℝ := ((n:ℝ) + 1) * (K + 1) / (K + M + 2) with hr
  have hD : (0:ℝ) < K + M + 2 := by positivity
  have hn' : (n:ℝ) ≤ K + M := by exact_mod_cast hn
  have hr0 : 0 < r := by positivity
  have c1 : 0 < ⌈r⌉ := Int.ceil_pos.2 hr0
  obtain ⟨m, hm⟩ := Int.eq_ofNat_of_zero_le (show 0 ≤ ⌈r⌉ - 1 by omega)
  have hmc : (⌈r⌉:ℝ) = m + 1 := by
    have : ⌈r⌉ = m + 1 := by omega
    rw [this]; push_cast; rfl
  have c3 := Int.le_ceil r
  have c4 := Int.ceil_lt_add_one r
  rw [hmc] at c3 c4
  have hrm : r * (K + M + 2) = (n + 1) * (K + 1) := by rw [hr]; field_simp
  have b1 : (m:ℝ) * (K + M + 2) < (n + 1) * (K + 1) := by rw [← hrm]; nlinarith
  have b2 : ((n:ℝ) + 1) * (K + 1) ≤ (m + 1) * (K + M + 2) := by rw [← hrm]; nlinarith
  have K0 : (0:ℝ) ≤ K := Nat.cast_nonneg K
  have M0 : (0:ℝ) ≤ M := Nat.cast_nonneg M
  have m0 : (0:ℝ) ≤ m := Nat.cast_nonneg m
  have n0 : (0:ℝ) ≤ n := Nat.cast_nonneg n
  have mK : m ≤ K := by
    by_contra hc
    have : (K:ℝ) + 1 ≤ m := by exact_mod_cast (not_le.1 hc)
    nlinarith
  have mn : m ≤ n := by
    by_contra hc
    have : (n:ℝ) + 1 ≤ m := by exact_mod_cast (not_le.1 hc)
    nlinarith
  have mM : n ≤ m + M := by
    by_contra hc
    have : (m:ℝ) + M + 1 ≤ n := by exact_mod_cast (not_le.1 hc)
    nlinarith
  have up : ∀ k, n - M ≤ k → k < m → H K M n k < H K M n (k + 1) := by
    intro k hk hkm
    have hkm' : (k:ℝ) + 1 ≤ m := by exact_mod_cast hkm
    have hk' : (n:ℝ) ≤ k + M := by exact_mod_cast (by omega : n ≤ k + M)
    have k0 : (0:ℝ) ≤ k := Nat.cast_nonneg k
    have rr := H_ratio' (K := K) (M := M) (n := n) (k := k) (by omega)
    have hp := H_pos (K := K) (M := M) (n := n) (k := k) hn (by omega) (by omega) (by omega)
    have q : (0:ℝ) < ((k:ℝ) + 1) * (k + M + 1 - n) := mul_pos (by positivity) (by linarith)
    have key : ((k:ℝ) + 1) * (k + M + 1 - n) < (K - k) * (n - k) := by nlinarith
    have : H K M n k * (((k:ℝ) + 1) * (k + M + 1 - n)) <
        H K M n (k + 1) * (((k:ℝ) + 1) * (k + M + 1 - n)) := by
      rw [rr]; exact mul_lt_mul_of_pos_left key hp
    exact lt_of_mul_lt_mul_right this q.le
  have down : ∀ k ≥ m, H K M n (k + 1) ≤ H K M n k := by
    intro k hk
    have hkm' : (m:ℝ) ≤ k := by exact_mod_cast hk
    have hk' : (n:ℝ) ≤ k + M := by exact_mod_cast (by omega : n ≤ k + M)
    have rr := H_ratio' (K := K) (M := M) (n := n) (k := k) (by omega)
    have q : (0:ℝ) < ((k:ℝ) + 1) * (k + M + 1 - n) := mul_pos (by positivity) (by linarith)
    have key : (K - k) * (n - k) ≤ ((k:ℝ) + 1) * (k + M + 1 - n) := by nlinarith
    have : H K M n (k + 1) * (((k:ℝ) + 1) * (k + M + 1 - n)) ≤
        H K M n k * (((k:ℝ) + 1) * (k + M + 1 - n)) := by
      rw [rr]; exact mul_le_mul_of_nonneg_left key H_nonneg
    exact le_of_mul_le_mul_right this q
  have z : ∀ k < n - M, H K M n k = 0 := fun k hk => H_zero (w_zero_of_lt (by omega))
  have pos := H_pos (K := K) (M := M) (n := n) (k := m) hn mK mn mM
  have hv := validate_ok (N := K + M) (K := K) (by omega) hn
  refine ⟨_, m, mass_univ (pmf_eval hn), ?_, Set.mem_univ _,
    fun j => (unimodal_from z up down pos j).1, fun j => (unimodal_from z up down pos j).2⟩
  have e : (((n:ℝ) + 1) * ((K:ℝ) + 1)) / (((K + M : ℕ) : ℝ) + 2) = r := by rw [hr]; push_cast; rfl
  have hD' : (((K + M : ℕ) : ℝ) + 2) ≠ 0 := by push_cast; exact hD.ne'
  simp only [mode, hv, ok_bind, ofInt_def, Int.cast_natCast, one_def, ofNat_def, fin_add, fin_mul,
    fin_div _ hD', e, mp.ceil_fin, py.int_cast, pure_eq_ok, hm]

/-- Non-vacuity: drawing 2 of 5 items, 3 of them good. -/
example : pmf 1 5 3 2 = .ok (fin (6 / 10)) := by
  have h := pmf_counts (N := 5) (K := 3) (n := 2) (k := 1) (by simp [Valid]) (by simp [Supp])
  refine h.trans ?_
  have a : (Int.toNat 3).choose (Int.toNat 1) = 3 := by decide
  have b : (5 - 3 : ℤ).toNat.choose (2 - 1 : ℤ).toNat = 2 := by decide
  have c : (Int.toNat 5).choose (Int.toNat 2) = 10 := by decide
  rw [a, b, c]
  norm_num
example : mode 5 3 2 = .ok 1 := by
  have e : ⌈((2:ℝ) + 1) * (3 + 1) / (5 + 2)⌉ = 2 := by rw [Int.ceil_eq_iff]; norm_num
  have h7 : (5:ℝ) + 2 ≠ 0 := by norm_num
  have hv := validate_ok (N := 5) (K := 3) (n := 2) (by omega) (by omega)
  simp only [Nat.cast_ofNat] at hv
  simp only [mode, hv, ok_bind, ofInt_def, Int.cast_ofNat, one_def, ofNat_def, fin_add, fin_mul,
    fin_div _ h7, mp.ceil_fin, e, pure_eq_ok]
  rw [show fin ((2:ℝ)) = fin ((2:ℤ):ℝ) by norm_num, py.int_cast]
  rfl

end Mpsci.hypergeometric
