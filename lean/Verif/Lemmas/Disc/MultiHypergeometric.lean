import Verif.Model.Disc.MultiHypergeometric
import Verif.Lemmas.Discrete
import Verif.Lemmas.Common
import Mathlib.Algebra.Polynomial.BigOperators
import Mathlib.Algebra.Polynomial.Coeff
import Mathlib.Tactic.ComputeDegree

/-! Sums over the support of the multivariate hypergeometric distribution. -/

namespace Mpsci.multivariate_hypergeometric

open Classical Num Polynomial

/-- The support over the natural numbers. -/
def suppN : List ℕ → ℕ → List (List ℕ)
  | [], _ => []
  | [_], n => [[n]]
  | c0 :: c' :: rest, n =>
    (List.range' (n - (c' :: rest).sum) (min c0 n + 1 - (n - (c' :: rest).sum))).flatMap fun k =>
      (suppN (c' :: rest) (n - k)).map fun t => k :: t

theorem range_cast (a b : ℕ) : py.range a b = (List.range' a (b - a)).map fun k : ℕ => (k:ℤ) := by
  rw [py.range, List.range'_eq_map_range, List.map_map, show ((b:ℤ) - a).toNat = b - a by omega]
  refine List.map_congr_left fun i _ => ?_
  simp

theorem supportGen_nat : ∀ (cs : List ℕ), cs ≠ [] → ∀ n : ℕ,
    supportGen (cs.map fun c : ℕ => (c:ℤ)) n =
      .ok ((suppN cs n).map fun v => v.map fun c : ℕ => (c:ℤ))
  | [], h, _ => absurd rfl h
  | [c], _, n => by simp [supportGen, suppN]
  | c0 :: c' :: rest, _, n => by
    have ih := supportGen_nat (c' :: rest) (by simp)
    have hs : ((c' :: rest).map fun c : ℕ => (c:ℤ)).sum = (((c' :: rest).sum : ℕ) : ℤ) := by
      rw [Nat.cast_list_sum]
    have e1 : max ((n:ℤ) - (((c' :: rest).sum : ℕ) : ℤ)) 0 = ((n - (c' :: rest).sum : ℕ) : ℤ) := by
      omega
    have e2 : min (c0:ℤ) n + 1 = ((min c0 n + 1 : ℕ) : ℤ) := by omega
    rw [List.map_cons, List.map_cons, supportGen, ← List.map_cons (f := fun c : ℕ => (c:ℤ)) (a := c')]
    simp only [hs, e1, e2, range_cast, List.mapM_map]
    rw [mapM_ok (g := fun k : ℕ => ((suppN (c' :: rest) (n - k)).map fun t => k :: t).map
      fun v => v.map fun c : ℕ => (c:ℤ))]
    · simp [suppN, List.flatMap, List.map_flatten, List.map_map, Function.comp_def]
    · intro k hk
      rw [List.mem_range'_1] at hk
      have : (n:ℤ) - (k:ℤ) = ((n - k : ℕ) : ℤ) := by omega
      simp only [Function.comp]
      rw [this, ih]
      simp [List.map_map, Function.comp_def]

theorem mem_suppN : ∀ (cs : List ℕ), cs ≠ [] → ∀ n ≤ cs.sum, ∀ v : List ℕ,
    v ∈ suppN cs n ↔ v.sum = n ∧ List.Forall₂ (· ≤ ·) v cs
  | [], h, _, _, _ => absurd rfl h
  | [c], _, n, hn, v => by
    simp only [List.sum_singleton] at hn
    simp only [suppN, List.mem_singleton]
    constructor
    · rintro rfl; simp [hn]
    · rintro ⟨h1, h2⟩
      rcases v with _ | ⟨a, v⟩
      · simp at h2
      · rw [List.forall₂_cons] at h2
        obtain rfl : v = [] := by simpa using h2.2
        simp at h1; rw [h1]
  | c0 :: c' :: rest, _, n, hn, v => by
    have ih := mem_suppN (c' :: rest) (by simp)
    rw [List.sum_cons] at hn
    rw [suppN, List.mem_flatMap]
    constructor
    · rintro ⟨k, hk, hv⟩
      rw [List.mem_range'_1] at hk
      rw [List.mem_map] at hv
      obtain ⟨t, ht, rfl⟩ := hv
      obtain ⟨h1, h2⟩ := (ih (n - k) (by omega) t).1 ht
      exact ⟨by rw [List.sum_cons, h1]; omega, List.Forall₂.cons (by omega) h2⟩
    · rintro ⟨h1, h2⟩
      rcases v with _ | ⟨k, t⟩
      · simp at h2
      · rw [List.forall₂_cons] at h2
        rw [List.sum_cons] at h1
        have hle : t.sum ≤ (c' :: rest).sum := List.Forall₂.sum_le_sum h2.2
        refine ⟨k, ?_, List.mem_map.2 ⟨t, (ih (n - k) (by omega) t).2 ⟨by omega, h2.2⟩, rfl⟩⟩
        rw [List.mem_range'_1]
        have := h2.1
        omega

theorem nodup_suppN : ∀ (cs : List ℕ) (n : ℕ), (suppN cs n).Nodup
  | [], _ => by simp [suppN]
  | [c], n => by simp [suppN]
  | c0 :: c' :: rest, n => by
    rw [suppN, List.nodup_flatMap]
    refine ⟨fun k _ => (nodup_suppN (c' :: rest) (n - k)).map fun a b h => (List.cons.inj h).2, ?_⟩
    refine (List.nodup_range').imp ?_
    intro a b hab l h1 h2
    rw [List.mem_map] at h1 h2
    obtain ⟨t, -, rfl⟩ := h1
    obtain ⟨t', -, h⟩ := h2
    exact hab (List.cons.inj h).1.symm

theorem sum_getD {α : Type} [AddCommMonoid α] (l : List α) :
    l.sum = ∑ i ∈ Finset.range l.length, l.getD i 0 := by
  induction l with
  | nil => simp
  | cons a l ih => rw [List.sum_cons, List.length_cons, Finset.sum_range_succ', ih]; simp [add_comm]

theorem sum_flatMap {α β : Type} (l : List α) (f : α → List β) (g : β → ℝ) :
    ((l.flatMap f).map g).sum = (l.map fun a => ((f a).map g).sum).sum := by
  induction l with
  | nil => simp
  | cons a l ih => simp [ih]

/-- The sum over the support of products of coefficients. -/
theorem supp_sum : ∀ (cs : List ℕ), cs ≠ [] → ∀ n ≤ cs.sum, ∀ P : ℕ → ℝ[X],
    (∀ i < cs.length, (P i).natDegree ≤ cs.getD i 0) →
    ((suppN cs n).map fun v => ∏ i ∈ Finset.range cs.length, (P i).coeff (v.getD i 0)).sum =
      (∏ i ∈ Finset.range cs.length, P i).coeff n
  | [], h, _, _, _, _ => absurd rfl h
  | [c], _, n, _, P, _ => by simp [suppN]
  | c0 :: c' :: rest, _, n, hn, P, hP => by
    have ih := supp_sum (c' :: rest) (by simp)
    set cs := c' :: rest with hcs
    rw [List.sum_cons] at hn
    set R : ℝ[X] := ∏ i ∈ Finset.range cs.length, P (i + 1) with hR
    have hRd : R.natDegree ≤ cs.sum := by
      refine (natDegree_prod_le _ _).trans ?_
      rw [sum_getD cs]
      refine Finset.sum_le_sum fun i hi => ?_
      have := hP (i + 1) (by simpa using Finset.mem_range.1 hi)
      simpa using this
    have h0 : (P 0).natDegree ≤ c0 := by simpa using hP 0 (by simp)
    have lhs : ∀ k, ((suppN cs (n - k)).map fun t =>
        ∏ i ∈ Finset.range (c0 :: cs).length, (P i).coeff ((k :: t).getD i 0)) =
        (suppN cs (n - k)).map fun t => (P 0).coeff k *
          ∏ i ∈ Finset.range cs.length, (P (i + 1)).coeff (t.getD i 0) := by
      intro k
      refine List.map_congr_left fun t _ => ?_
      rw [List.length_cons, Finset.prod_range_succ']
      simp [mul_comm]
    have hsum : ∀ k, n - cs.sum ≤ k → k ≤ n → ((suppN cs (n - k)).map fun t =>
        ∏ i ∈ Finset.range (c0 :: cs).length, (P i).coeff ((k :: t).getD i 0)).sum =
        (P 0).coeff k * R.coeff (n - k) := by
      intro k h1 h2
      rw [lhs, List.sum_map_mul_left, ih (n - k) (by omega) (fun i => P (i + 1)) fun i hi => by
        simpa using hP (i + 1) (by simpa using hi)]
    have e1 : ((suppN (c0 :: cs) n).map fun v =>
        ∏ i ∈ Finset.range (c0 :: cs).length, (P i).coeff (v.getD i 0)).sum =
        ((List.range' (n - cs.sum) (min c0 n + 1 - (n - cs.sum))).map fun k =>
          (P 0).coeff k * R.coeff (n - k)).sum := by
      rw [hcs, suppN, ← hcs, sum_flatMap]
      congr 1
      refine List.map_congr_left fun k hk => ?_
      rw [List.mem_range'_1] at hk
      rw [List.map_map, ← hsum k (by omega) (by omega)]
      rfl
    rw [e1, ← List.sum_toFinset _ List.nodup_range', List.length_cons, Finset.prod_range_succ', ← hR,
      mul_comm R, coeff_mul, Finset.Nat.sum_antidiagonal_eq_sum_range_succ
        (fun i j => (P 0).coeff i * R.coeff j)]
    refine Finset.sum_subset ?_ ?_
    · intro k hk
      rw [List.mem_toFinset, List.mem_range'_1] at hk
      rw [Finset.mem_range]; omega
    · intro k hk hk'
      rw [List.mem_toFinset, List.mem_range'_1] at hk'
      rw [Finset.mem_range] at hk
      by_cases hc : c0 < k
      · rw [coeff_eq_zero_of_natDegree_lt (by omega), zero_mul]
      · rw [coeff_eq_zero_of_natDegree_lt (p := R) (by omega), mul_zero]

/-- Changing one factor of a product. -/
theorem prod_mod {R : Type} [CommRing R] {s : Finset ℕ} {i : ℕ} (hi : i ∈ s) {F G : ℕ → R} {u v : R}
    (h : F i * u = v * G i) (hj : ∀ j ∈ s, j ≠ i → F j = G j) :
    (∏ j ∈ s, F j) * u = v * ∏ j ∈ s, G j := by
  rw [← Finset.mul_prod_erase s F hi, ← Finset.mul_prod_erase s G hi,
    Finset.prod_congr rfl fun j hj' => hj j (Finset.mem_of_mem_erase hj') (Finset.ne_of_mem_erase hj')]
  calc F i * (∏ j ∈ s.erase i, G j) * u = (F i * u) * ∏ j ∈ s.erase i, G j := by ring
    _ = _ := by rw [h]; ring

/-- `(1 + X)^c`, whose coefficients are binomial coefficients. -/
noncomputable def B0 (c : ℕ) : ℝ[X] := (1 + X) ^ c
/-- The polynomial with the coefficients `k binom(c, k)`. -/
noncomputable def B1 (c : ℕ) : ℝ[X] := C (c:ℝ) * X * (1 + X) ^ (c - 1)
/-- The polynomial with the coefficients `k (k-1) binom(c, k)`. -/
noncomputable def B2 (c : ℕ) : ℝ[X] := C ((c:ℝ) * (c - 1)) * X ^ 2 * (1 + X) ^ (c - 2)

theorem deg1 : (1 + X : ℝ[X]).natDegree ≤ 1 := by compute_degree

theorem B0_deg (c : ℕ) : (B0 c).natDegree ≤ c := by
  refine natDegree_pow_le.trans ?_
  have := Nat.mul_le_mul_left c deg1
  omega
theorem B1_deg (c : ℕ) : (B1 c).natDegree ≤ c := by
  rcases c with _ | c
  · simp [B1]
  · have h : ((1 + X : ℝ[X]) ^ c).natDegree ≤ c := B0_deg c
    refine natDegree_mul_le.trans ?_
    have h2 : (C ((c + 1 : ℕ) : ℝ) * X).natDegree ≤ 1 := by compute_degree
    simp only [Nat.add_sub_cancel]
    omega
theorem B2_deg (c : ℕ) : (B2 c).natDegree ≤ c := by
  rcases c with _ | _ | c
  · simp [B2]
  · simp [B2]
  · have h : ((1 + X : ℝ[X]) ^ c).natDegree ≤ c := B0_deg c
    refine natDegree_mul_le.trans ?_
    have h2 : (C (((c + 1 + 1 : ℕ) : ℝ) * (((c + 1 + 1 : ℕ) : ℝ) - 1)) * X ^ 2).natDegree ≤ 2 := by
      compute_degree
    rw [show c + 1 + 1 - 2 = c by omega]
    omega

theorem B0_coeff (c k : ℕ) : (B0 c).coeff k = c.choose k := by
  rw [B0, coeff_one_add_X_pow]

theorem B1_coeff (c k : ℕ) : (B1 c).coeff k = k * c.choose k := by
  rcases k with _ | k
  · simp [B1]
  · rcases c with _ | c
    · simp [B1]
    · have e := Nat.add_one_mul_choose_eq c k
      have e' : ((c:ℝ) + 1) * c.choose k = (c + 1).choose (k + 1) * (k + 1) := by exact_mod_cast e
      rw [B1, mul_assoc, coeff_C_mul, mul_comm X, coeff_mul_X, Nat.add_sub_cancel, coeff_one_add_X_pow]
      push_cast
      rw [e']; ring

theorem B2_coeff (c k : ℕ) : (B2 c).coeff k = k * (k - 1) * c.choose k := by
  rcases k with _ | _ | k
  · simp [B2, mul_assoc]
  · simp only [B2, mul_assoc, coeff_C_mul]
    rw [mul_comm (X ^ 2), coeff_mul_X_pow', if_neg (by omega)]
    simp
  · rcases c with _ | _ | c
    · simp [B2]
    · simp [B2, Nat.choose_eq_zero_of_lt (show 0 + 1 < k + 1 + 1 by omega)]
    · have e := Nat.add_one_mul_choose_eq c k
      have f := Nat.add_one_mul_choose_eq (c + 1) (k + 1)
      have e' : ((c:ℝ) + 1) * c.choose k = (c + 1).choose (k + 1) * (k + 1) := by exact_mod_cast e
      have f' : ((c:ℝ) + 1 + 1) * (c + 1).choose (k + 1) =
          (c + 1 + 1).choose (k + 1 + 1) * (k + 1 + 1) := by exact_mod_cast f
      rw [B2, mul_assoc, coeff_C_mul, mul_comm (X ^ 2), coeff_mul_X_pow, show c + 1 + 1 - 2 = c by omega,
        coeff_one_add_X_pow]
      push_cast
      calc ((c:ℝ) + 1 + 1) * ((c:ℝ) + 1 + 1 - 1) * c.choose k =
          (c + 1 + 1) * ((c + 1) * c.choose k) := by ring
        _ = ((c + 1 + 1) * (c + 1).choose (k + 1)) * (k + 1) := by rw [e']; ring
        _ = _ := by rw [f']; ring

theorem B1_mul (c : ℕ) : B1 c * (1 + X) = (C (c:ℝ) * X) * B0 c := by
  rcases c with _ | c
  · simp [B1]
  · simp only [B1, B0, Nat.add_sub_cancel, pow_succ]; ring

theorem B2_mul (c : ℕ) : B2 c * (1 + X) ^ 2 = (C ((c:ℝ) * (c - 1)) * X ^ 2) * B0 c := by
  rcases c with _ | _ | c
  · simp [B2]
  · simp [B2]
  · rw [B2, B0, show c + 1 + 1 - 2 = c by omega, pow_add, pow_add]; ring

variable {cs : List ℕ} {n : ℕ}

theorem prod_B0 (cs : List ℕ) : ∏ i ∈ Finset.range cs.length, B0 (cs.getD i 0) = B0 cs.sum := by
  simp only [B0]
  rw [Finset.prod_pow_eq_pow_sum, ← sum_getD]

theorem cancel {p : ℝ[X]} {a : ℝ} {m T : ℕ} (h : p * (1 + X) ^ m = (C a * X ^ m) * (1 + X) ^ T)
    (hm : m ≤ T) : p = C a * X ^ m * (1 + X) ^ (T - m) := by
  have hne : (1 + X : ℝ[X]) ^ m ≠ 0 := by
    refine pow_ne_zero _ ?_
    intro h0
    have := congrArg (fun q => q.coeff 0) h0
    simp at this
  refine mul_right_cancel₀ hne ?_
  rw [h, mul_assoc (C a * X ^ m), ← pow_add, Nat.sub_add_cancel hm]

/-- The product of the binomial coefficients. -/
def W (cs v : List ℕ) : ℕ := ∏ i ∈ Finset.range cs.length, (cs.getD i 0).choose (v.getD i 0)

theorem W_cast (cs v : List ℕ) : (W cs v : ℝ) =
    ∏ i ∈ Finset.range cs.length, (B0 (cs.getD i 0)).coeff (v.getD i 0) := by
  rw [W, Nat.cast_prod]
  exact Finset.prod_congr rfl fun i _ => (B0_coeff _ _).symm

theorem W_sum (h : cs ≠ []) (hn : n ≤ cs.sum) :
    ((suppN cs n).map fun v => (W cs v : ℝ)).sum = cs.sum.choose n := by
  have := supp_sum cs h n hn (fun i => B0 (cs.getD i 0)) fun i _ => B0_deg _
  rw [prod_B0, B0_coeff] at this
  rw [← this]
  simp only [W_cast]

theorem W_mean (h : cs ≠ []) (hn : n ≤ cs.sum) {i : ℕ} (hi : i < cs.length) :
    ((suppN cs n).map fun v => (v.getD i 0 : ℝ) * (W cs v : ℝ)).sum * cs.sum =
      n * cs.getD i 0 * cs.sum.choose n := by
  set P : ℕ → ℝ[X] := fun j => if j = i then B1 (cs.getD i 0) else B0 (cs.getD j 0) with hP
  have hm := Finset.mem_range.2 hi
  have s1 := supp_sum cs h n hn P fun j _ => by
    by_cases e : j = i
    · simp only [hP, e, if_true]; exact B1_deg _
    · simp only [hP, e, if_false]; exact B0_deg _
  have s2 : ∀ v : List ℕ, (v.getD i 0 : ℝ) * (W cs v : ℝ) =
      ∏ j ∈ Finset.range cs.length, (P j).coeff (v.getD j 0) := by
    intro v
    have := prod_mod hm (F := fun j => (P j).coeff (v.getD j 0))
      (G := fun j => (B0 (cs.getD j 0)).coeff (v.getD j 0)) (u := 1) (v := (v.getD i 0 : ℝ))
      (by simp only [hP, if_true, B1_coeff, B0_coeff, mul_one]) (fun j _ e => by simp only [hP, if_neg e])
    rw [W_cast, ← this, mul_one]
  have s3 := prod_mod hm (F := P) (G := fun j => B0 (cs.getD j 0)) (u := 1 + X)
    (v := C (cs.getD i 0 : ℝ) * X) (by simp only [hP, if_true]; exact B1_mul _)
    (fun j _ e => by simp only [hP, if_neg e])
  simp only [s2]
  rw [s1]
  rw [prod_B0, B0] at s3
  rcases Nat.eq_zero_or_pos cs.sum with h0 | h0
  · have : cs.getD i 0 = 0 := by
      have := List.sum_eq_zero_iff.1 h0 
      have h2 : cs.getD i 0 = cs[i] := by simp [hi]
      rw [h2]; exact this _ (List.getElem_mem hi)
    rw [this, h0]; simp
  · rw [cancel (p := ∏ j ∈ Finset.range cs.length, P j) (m := 1) (T := cs.sum)
      (a := (cs.getD i 0 : ℝ)) (by simpa only [pow_one] using s3) h0]
    rcases n with _ | n
    · simp
    · obtain ⟨T, hT⟩ : ∃ T, cs.sum = T + 1 := ⟨cs.sum - 1, by omega⟩
      have e := Nat.add_one_mul_choose_eq T n
      have e' : ((T:ℝ) + 1) * T.choose n = (T + 1).choose (n + 1) * (n + 1) := by exact_mod_cast e
      rw [hT, mul_assoc, coeff_C_mul, pow_one, mul_comm X, coeff_mul_X, Nat.add_sub_cancel,
        coeff_one_add_X_pow]
      push_cast
      calc (cs.getD i 0 : ℝ) * (T.choose n) * (T + 1) = cs.getD i 0 * ((T + 1) * T.choose n) := by ring
        _ = _ := by rw [e']; ring

theorem second {P : ℕ → ℝ[X]} {a : ℝ} (hT : 2 ≤ cs.sum)
    (s3 : (∏ j ∈ Finset.range cs.length, P j) * (1 + X) ^ 2 = (C a * X ^ 2) * (1 + X) ^ cs.sum) :
    (∏ j ∈ Finset.range cs.length, P j).coeff n * (cs.sum * (cs.sum - 1)) =
      a * (n * (n - 1)) * cs.sum.choose n := by
  rw [cancel s3 hT]
  rcases n with _ | _ | n
  · simp [mul_assoc]
  · rw [mul_assoc, coeff_C_mul, mul_comm (X ^ 2), coeff_mul_X_pow', if_neg (by omega)]
    simp
  · obtain ⟨T, hT⟩ : ∃ T, cs.sum = T + 1 + 1 := ⟨cs.sum - 2, by omega⟩
    have e := Nat.add_one_mul_choose_eq T n
    have f := Nat.add_one_mul_choose_eq (T + 1) (n + 1)
    have e' : ((T:ℝ) + 1) * T.choose n = (T + 1).choose (n + 1) * (n + 1) := by exact_mod_cast e
    have f' : ((T:ℝ) + 1 + 1) * (T + 1).choose (n + 1) =
        (T + 1 + 1).choose (n + 1 + 1) * (n + 1 + 1) := by exact_mod_cast f
    rw [hT, mul_assoc, coeff_C_mul, mul_comm (X ^ 2), coeff_mul_X_pow, show T + 1 + 1 - 2 = T by omega,
      coeff_one_add_X_pow]
    push_cast
    calc a * (T.choose n : ℝ) * (((T:ℝ) + 1 + 1) * ((T:ℝ) + 1 + 1 - 1)) =
        a * (T + 1 + 1) * ((T + 1) * T.choose n) := by ring
      _ = a * ((T + 1 + 1) * (T + 1).choose (n + 1)) * (n + 1) := by rw [e']; ring
      _ = _ := by rw [f']; ring

theorem W_mixed (h : cs ≠ []) (hn : n ≤ cs.sum) (hT : 2 ≤ cs.sum) {i k : ℕ} (hi : i < cs.length)
    (hk : k < cs.length) (hik : i ≠ k) :
    ((suppN cs n).map fun v => (v.getD i 0 : ℝ) * v.getD k 0 * (W cs v : ℝ)).sum *
      (cs.sum * (cs.sum - 1)) = cs.getD i 0 * cs.getD k 0 * (n * (n - 1)) * cs.sum.choose n := by
  set P' : ℕ → ℝ[X] := fun j => if j = i then B1 (cs.getD i 0) else B0 (cs.getD j 0) with hP'
  set P : ℕ → ℝ[X] := fun j => if j = k then B1 (cs.getD k 0) else P' j with hP
  have hm := Finset.mem_range.2 hi
  have hm' := Finset.mem_range.2 hk
  have s1 := supp_sum cs h n hn P fun j _ => by
    by_cases e : j = k
    · simp only [hP, e, if_true]; exact B1_deg _
    · by_cases e' : j = i
      · subst e'; simp only [hP, hP', if_neg e, if_true]; exact B1_deg _
      · simp only [hP, hP', if_neg e, if_neg e']; exact B0_deg _
  have pk : P' k = B0 (cs.getD k 0) := by simp only [hP', if_neg hik.symm]
  have s2 : ∀ v : List ℕ, (v.getD i 0 : ℝ) * v.getD k 0 * (W cs v : ℝ) =
      ∏ j ∈ Finset.range cs.length, (P j).coeff (v.getD j 0) := by
    intro v
    have t1 := prod_mod hm (F := fun j => (P' j).coeff (v.getD j 0))
      (G := fun j => (B0 (cs.getD j 0)).coeff (v.getD j 0)) (u := 1) (v := (v.getD i 0 : ℝ))
      (by simp only [hP', if_true, B1_coeff, B0_coeff, mul_one]) (fun j _ e => by simp only [hP', if_neg e])
    have t2 := prod_mod hm' (F := fun j => (P j).coeff (v.getD j 0))
      (G := fun j => (P' j).coeff (v.getD j 0)) (u := 1) (v := (v.getD k 0 : ℝ))
      (by simp only [hP, if_true, pk, B1_coeff, B0_coeff, mul_one]) (fun j _ e => by simp only [hP, if_neg e])
    rw [mul_one] at t1 t2
    rw [W_cast, t2, t1]; ring
  have s3 := prod_mod hm (F := P') (G := fun j => B0 (cs.getD j 0)) (u := 1 + X)
    (v := C (cs.getD i 0 : ℝ) * X) (by simp only [hP', if_true]; exact B1_mul _)
    (fun j _ e => by simp only [hP', if_neg e])
  have s4 := prod_mod hm' (F := P) (G := P') (u := 1 + X)
    (v := C (cs.getD k 0 : ℝ) * X) (by simp only [hP, if_true, pk]; exact B1_mul _)
    (fun j _ e => by simp only [hP, if_neg e])
  rw [prod_B0, B0] at s3
  simp only [s2]
  rw [s1]
  refine second hT ?_
  rw [pow_two, ← mul_assoc, s4, C_mul]
  calc C (cs.getD k 0 : ℝ) * X * (∏ j ∈ Finset.range cs.length, P' j) * (1 + X) =
      C (cs.getD k 0 : ℝ) * X * ((∏ j ∈ Finset.range cs.length, P' j) * (1 + X)) := by ring
    _ = _ := by rw [s3]; ring

theorem W_second (h : cs ≠ []) (hn : n ≤ cs.sum) (hT : 2 ≤ cs.sum) {i : ℕ} (hi : i < cs.length) :
    ((suppN cs n).map fun v => (v.getD i 0 : ℝ) * (v.getD i 0 - 1) * (W cs v : ℝ)).sum *
      (cs.sum * (cs.sum - 1)) =
      cs.getD i 0 * (cs.getD i 0 - 1) * (n * (n - 1)) * cs.sum.choose n := by
  set P : ℕ → ℝ[X] := fun j => if j = i then B2 (cs.getD i 0) else B0 (cs.getD j 0) with hP
  have hm := Finset.mem_range.2 hi
  have s1 := supp_sum cs h n hn P fun j _ => by
    by_cases e : j = i
    · simp only [hP, e, if_true]; exact B2_deg _
    · simp only [hP, e, if_false]; exact B0_deg _
  have s2 : ∀ v : List ℕ, (v.getD i 0 : ℝ) * (v.getD i 0 - 1) * (W cs v : ℝ) =
      ∏ j ∈ Finset.range cs.length, (P j).coeff (v.getD j 0) := by
    intro v
    have := prod_mod hm (F := fun j => (P j).coeff (v.getD j 0))
      (G := fun j => (B0 (cs.getD j 0)).coeff (v.getD j 0)) (u := 1)
      (v := (v.getD i 0 : ℝ) * (v.getD i 0 - 1))
      (by simp only [hP, if_true, B2_coeff, B0_coeff, mul_one]) (fun j _ e => by simp only [hP, if_neg e])
    rw [W_cast, ← this, mul_one]
  have s3 := prod_mod hm (F := P) (G := fun j => B0 (cs.getD j 0)) (u := (1 + X) ^ 2)
    (v := C ((cs.getD i 0 : ℝ) * (cs.getD i 0 - 1)) * X ^ 2)
    (by simp only [hP, if_true]; exact B2_mul _)
    (fun j _ e => by simp only [hP, if_neg e])
  rw [prod_B0, B0] at s3
  simp only [s2]
  rw [s1]
  exact second hT s3

end Mpsci.multivariate_hypergeometric
