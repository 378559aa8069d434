import Verif.Model.Fun.Legendre
import Verif.Base.PyNum
import Mathlib.Analysis.Polynomial.Basic
import Mathlib.Analysis.Calculus.LocalExtr.Polynomial
import Mathlib.Analysis.SpecialFunctions.Integrals.Basic
import Mathlib.LinearAlgebra.Lagrange
import Mathlib.MeasureTheory.Integral.IntervalIntegral.IntegrationByParts

/-! The Legendre polynomials: orthogonality, zeros and the Gauss quadrature. -/

namespace Mpsci.legD

open Polynomial MeasureTheory intervalIntegral

theorem ii (p : ℝ[X]) (a b : ℝ) : IntervalIntegrable (fun x => p.eval x) volume a b := (Polynomial.continuous p).intervalIntegrable a b

/-- the shifted Legendre polynomial over the reals -/
noncomputable def S (n : ℕ) : ℝ[X] := (shiftedLegendre n).map (Int.castRingHom ℝ)

/-- the Legendre polynomial -/
noncomputable def P (n : ℕ) : ℝ[X] := (S n).comp (C (1 / 2) * (1 - X))

theorem eval_P (n : ℕ) (x : ℝ) : (P n).eval x = (S n).eval ((1 - x) / 2) := by
  simp [P, eval_comp]; congr 1; ring

theorem aeval_S (n : ℕ) (x : ℝ) : aeval x (shiftedLegendre n) = (S n).eval x := by
  rw [S, eval_map, aeval_def]; rfl

theorem S_ne {n : ℕ} : S n ≠ 0 := by
  rw [S, Polynomial.map_ne_zero_iff (RingHom.injective_int _)]
  intro h
  have := degree_shiftedLegendre n
  rw [h, degree_zero] at this
  exact absurd this (by simp)

theorem natDegree_S (n : ℕ) : (S n).natDegree = n := by
  rw [S, natDegree_map_eq_of_injective (RingHom.injective_int _), natDegree_shiftedLegendre]

theorem natDegree_lin : (C (1 / 2 : ℝ) * (1 - X) : ℝ[X]).natDegree = 1 := by
  rw [natDegree_C_mul (by norm_num), ← natDegree_neg, neg_sub, show (X - 1 : ℝ[X]) = X - C 1 by simp, natDegree_X_sub_C]

theorem natDegree_P (n : ℕ) : (P n).natDegree = n := by
  rw [P, natDegree_comp, natDegree_lin, natDegree_S, mul_one]

theorem S_zero (n : ℕ) : (S n).eval 0 = 1 := by
  rw [← coeff_zero_eq_eval_zero, S, coeff_map, coeff_shiftedLegendre]; simp

theorem S_symm (n : ℕ) (x : ℝ) : (S n).eval (1 - x) = (-1) ^ n * (S n).eval x := by
  rw [← aeval_S, ← aeval_S, shiftedLegendre_eval_symm n (1 - x), sub_sub_cancel]

theorem P_one (n : ℕ) : (P n).eval 1 = 1 := by rw [eval_P]; simp [S_zero]

theorem P_symm (n : ℕ) (x : ℝ) : (P n).eval (-x) = (-1) ^ n * (P n).eval x := by
  rw [eval_P, eval_P, ← S_symm]; congr 1; ring

theorem P_ne {n : ℕ} : P n ≠ 0 := fun h => by have := P_one n; simp [h] at this

/-- integration by parts against a polynomial that vanishes at both ends -/
theorem parts {p : ℝ[X]} (q : ℝ[X]) {a b : ℝ} (ha : p.eval a = 0) (hb : p.eval b = 0) :
    ∫ x in a..b, (derivative p * q).eval x = -∫ x in a..b, (p * derivative q).eval x := by
  have h := integral_eq_sub_of_hasDerivAt (f := fun x => (p * q).eval x) (f' := fun x => (derivative (p * q)).eval x) (a := a) (b := b)
    (fun x _ => Polynomial.hasDerivAt _ x) (ii _ _ _)
  simp only [derivative_mul, eval_add, eval_mul, ha, hb, zero_mul, sub_self] at h
  rw [integral_add (by simpa using ii (derivative p * q) a b) (by simpa using ii (p * derivative q) a b)] at h
  simp only [eval_mul]
  linarith

/-- `x^n (1 - x)^n` -/
noncomputable def U (n : ℕ) : ℝ[X] := X ^ n * (1 - X) ^ n

theorem U_vanish {n k : ℕ} (h : k < n) : (derivative^[k] (U n)).eval 0 = 0 ∧ (derivative^[k] (U n)).eval 1 = 0 := by
  have h1 : (X : ℝ[X]) ^ n ∣ U n := ⟨_, rfl⟩
  have h2 : (1 - X : ℝ[X]) ^ n ∣ U n := ⟨X ^ n, by rw [U]; ring⟩
  obtain ⟨u, hu⟩ := pow_sub_dvd_iterate_derivative_of_pow_dvd k h1
  obtain ⟨v, hv⟩ := pow_sub_dvd_iterate_derivative_of_pow_dvd k h2
  constructor
  · rw [hu]; simp [zero_pow (show n - k ≠ 0 by omega)]
  · rw [hv]; simp [zero_pow (show n - k ≠ 0 by omega)]

theorem parts_iter (n : ℕ) : ∀ k ≤ n, ∀ q : ℝ[X], ∫ x in (0:ℝ)..1, (derivative^[k] (U n) * q).eval x =
    (-1) ^ k * ∫ x in (0:ℝ)..1, (U n * derivative^[k] q).eval x
  | 0, _, q => by simp
  | k + 1, h, q => by
    obtain ⟨h0, h1⟩ := U_vanish (show k < n by omega)
    rw [Function.iterate_succ_apply', parts q h0 h1, parts_iter n k (by omega), ← Function.iterate_succ_apply, pow_succ]
    ring

theorem fact_S (n : ℕ) : (n.factorial : ℝ[X]) * S n = derivative^[n] (U n) := by
  have := congrArg (Polynomial.map (Int.castRingHom ℝ)) (factorial_mul_shiftedLegendre_eq n)
  rw [Polynomial.map_mul, ← Polynomial.iterate_derivative_map] at this
  simpa [S, U] using this

theorem orth_S {n : ℕ} {q : ℝ[X]} (h : q.natDegree < n) : ∫ x in (0:ℝ)..1, (S n * q).eval x = 0 := by
  have h1 := parts_iter n n le_rfl q
  rw [iterate_derivative_eq_zero h, ← fact_S] at h1
  have h2 : ∀ x : ℝ, ((n.factorial : ℝ[X]) * S n * q).eval x = n.factorial * (S n * q).eval x := fun x => by
    rw [mul_assoc, eval_mul]; simp
  simp only [h2, intervalIntegral.integral_const_mul, mul_zero, eval_zero, intervalIntegral.integral_zero] at h1
  exact (mul_eq_zero.1 h1).resolve_left (by positivity)

/-- the Legendre polynomial is orthogonal to the polynomials of lower degree -/
theorem orth {n : ℕ} {q : ℝ[X]} (h : q.natDegree < n) : ∫ x in (-1:ℝ)..1, (P n * q).eval x = 0 := by
  set q' : ℝ[X] := q.comp (1 - C 2 * X) with hq'
  have hd : q'.natDegree < n := by
    rw [hq', natDegree_comp]
    have : (1 - C 2 * X : ℝ[X]).natDegree ≤ 1 := by
      refine (natDegree_sub_le _ _).trans (max_le (by simp) ?_)
      rw [natDegree_C_mul (by norm_num), natDegree_X]
    nlinarith
  have e : ∀ x : ℝ, (P n * q).eval x = (fun u => (S n * q').eval u) (1 / 2 - x / 2) := fun x => by
    simp only [eval_mul, eval_P, hq', eval_comp, eval_sub, eval_one, eval_C, eval_X]
    congr 2 <;> ring
  simp only [e]
  rw [integral_comp_sub_div (fun u => (S n * q').eval u) (by norm_num : (2:ℝ) ≠ 0)]
  norm_num
  simpa using orth_S hd

/-- the integral of a polynomial that is not negative on the interval and not zero -/
theorem int_pos {r : ℝ[X]} (h0 : r ≠ 0) (h : ∀ x ∈ Set.Ioo (-1:ℝ) 1, 0 ≤ r.eval x) : 0 < ∫ x in (-1:ℝ)..1, r.eval x := by
  obtain ⟨c, hc, hr⟩ : ∃ c ∈ Set.Ioo (-1:ℝ) 1, r.eval c ≠ 0 := by
    by_contra hcon
    push Not at hcon
    exact h0 (Polynomial.eq_zero_of_infinite_isRoot r ((Set.Ioo_infinite (by norm_num : (-1:ℝ) < 1)).mono fun x hx => hcon x hx))
  refine integral_pos (by norm_num) (Polynomial.continuous r).continuousOn (fun x hx => ?_) ⟨c, Set.Ioo_subset_Icc_self hc, lt_of_le_of_ne (h c hc) hr.symm⟩
  rcases hx.2.lt_or_eq with h1 | rfl
  · exact h x ⟨hx.1, h1⟩
  · have hcl : (1:ℝ) ∈ closure (Set.Ioo (-1:ℝ) 1) := by rw [closure_Ioo (by norm_num)]; norm_num
    exact (isClosed_Ici.preimage (Polynomial.continuous r)).closure_subset_iff.2 (fun y hy => h y hy) hcl

theorem factor {n : ℕ} {c : ℝ} (h : (P n).eval c = 0) : ∃ q : ℝ[X], P n = (X - C c) * q ∧ q ≠ 0 ∧ q.natDegree + 1 = n := by
  obtain ⟨q, hq⟩ := dvd_iff_isRoot.2 h
  have hq0 : q ≠ 0 := by rintro rfl; exact P_ne (by rw [hq, mul_zero])
  refine ⟨q, hq, hq0, ?_⟩
  have := natDegree_P n
  rw [hq, natDegree_mul (X_sub_C_ne_zero c) hq0, natDegree_X_sub_C] at this
  omega

/-- the zeros lie inside the interval -/
theorem zero_mem {n : ℕ} {c : ℝ} (h : (P n).eval c = 0) : -1 < c ∧ c < 1 := by
  have key : ∀ c : ℝ, (P n).eval c = 0 → c < 1 := fun c h => by
    by_contra hc
    push Not at hc
    obtain ⟨q, hq, hq0, hd⟩ := factor h
    have h1 := orth (n := n) (q := q) (by omega)
    have h2 : 0 < ∫ x in (-1:ℝ)..1, ((C c - X) * q ^ 2).eval x := by
      refine int_pos (mul_ne_zero (fun h => X_sub_C_ne_zero c (by rw [← neg_sub, h, neg_zero])) (pow_ne_zero 2 hq0)) fun x hx => ?_
      simp only [eval_mul, eval_sub, eval_C, eval_X, eval_pow]
      exact mul_nonneg (by linarith [hx.2]) (sq_nonneg _)
    rw [show (C c - X) * q ^ 2 = -(P n * q) by rw [hq]; ring] at h2
    simp only [eval_neg, intervalIntegral.integral_neg, h1] at h2
    norm_num at h2
  refine ⟨?_, key c h⟩
  have := key (-c) (by rw [P_symm, h, mul_zero])
  linarith

/-- the zeros are simple -/
theorem nodup (n : ℕ) : (P n).roots.Nodup := by
  rw [Multiset.nodup_iff_count_le_one]
  intro c
  rw [count_roots]
  by_contra hc
  push Not at hc
  obtain ⟨q, hq⟩ := (pow_dvd_pow (X - C c) (show 2 ≤ rootMultiplicity c (P n) by omega)).trans (pow_rootMultiplicity_dvd (P n) c)
  have hq0 : q ≠ 0 := by rintro rfl; exact P_ne (by rw [hq, mul_zero])
  have hd := natDegree_P n
  rw [hq, natDegree_mul (pow_ne_zero 2 (X_sub_C_ne_zero c)) hq0, natDegree_pow, natDegree_X_sub_C] at hd
  have h1 := orth (n := n) (q := q) (by omega)
  have h2 : 0 < ∫ x in (-1:ℝ)..1, (((X - C c) * q) ^ 2).eval x :=
    int_pos (pow_ne_zero 2 (mul_ne_zero (X_sub_C_ne_zero c) hq0)) fun x _ => by rw [eval_pow]; exact sq_nonneg _
  rw [show ((X - C c) * q) ^ 2 = P n * q by rw [hq]; ring, h1] at h2
  exact lt_irrefl _ h2

theorem card_iter (p : ℝ[X]) (k : ℕ) : p.roots.card ≤ (derivative^[k] p).roots.card + k := by
  induction k with
  | zero => simp
  | succ k ih =>
    rw [Function.iterate_succ_apply']
    have := card_roots_le_derivative (derivative^[k] p)
    omega

/-- all the zeros are real -/
theorem card_roots (n : ℕ) : (P n).roots.card = n := by
  refine le_antisymm ((card_roots' _).trans (natDegree_P n).le) ?_
  have hU : U n ≠ 0 := mul_ne_zero (pow_ne_zero _ X_ne_zero) (pow_ne_zero _ fun h => by
    have := congrArg (eval (0:ℝ)) h; simp at this)
  have h1 : (U n).roots.card = 2 * n := by
    have : (1 - X : ℝ[X]).roots.card = 1 := by
      rw [show (1 - X : ℝ[X]) = -(X - C 1) by simp, roots_neg, roots_X_sub_C]; rfl
    rw [U, roots_mul hU, roots_pow, roots_pow, Multiset.card_add, Multiset.card_nsmul, Multiset.card_nsmul, this, roots_X]
    simp; ring
  have h2 := card_iter (U n) n
  rw [h1, ← fact_S] at h2
  have h3 : ((n.factorial : ℝ[X]) * S n).roots = (S n).roots := by
    rw [← C_eq_natCast, roots_C_mul _ (by positivity)]
  rw [h3] at h2
  have h4 : (S n).roots.card ≤ (P n).roots.card := by
    have e : S n = (P n).comp (1 - C 2 * X) := by
      refine Polynomial.funext fun x => ?_
      rw [eval_comp, eval_P]; congr 1; simp
    have hinj : Function.Injective fun x : ℝ => 1 - 2 * x := fun a b h => by simpa using h
    have hle : (S n).roots.map (fun x : ℝ => 1 - 2 * x) ≤ (P n).roots := by
      rw [Multiset.le_iff_count]
      intro c
      rw [count_roots]
      obtain ⟨a, rfl⟩ : ∃ a : ℝ, 1 - 2 * a = c := ⟨(1 - c) / 2, by ring⟩
      rw [Multiset.count_map_eq_count' _ _ hinj, count_roots]
      refine (le_rootMultiplicity_iff P_ne).2 ?_
      obtain ⟨u, hu⟩ := pow_rootMultiplicity_dvd (S n) a
      set m := rootMultiplicity a (S n)
      refine ⟨C ((-1 / 2) ^ m) * u.comp (C (1 / 2) * (1 - X)), ?_⟩
      conv_lhs => rw [P, hu]
      rw [mul_comp, pow_comp, sub_comp, X_comp, C_comp, ← mul_assoc, C_pow, ← mul_pow]
      congr 2
      refine Polynomial.funext fun x => ?_
      simp; ring
    simpa using Multiset.card_le_card hle
  omega

theorem intervalIntegral_sum (s : Finset ℝ) (f : ℝ → ℝ[X]) : ∫ x in (-1:ℝ)..1, (∑ i ∈ s, f i).eval x = ∑ i ∈ s, ∫ x in (-1:ℝ)..1, (f i).eval x := by
  simp only [eval_finset_sum]
  exact integral_finset_sum fun i _ => ii _ _ _

variable {n : ℕ} {s : Finset ℝ}

/-- the weight that belongs to a node -/
noncomputable def w (n : ℕ) (x : ℝ) : ℝ := 2 / ((1 - x ^ 2) * (derivative (P n)).eval x ^ 2)

/-- interpolatory quadrature at the zeros is exact below degree `2 n` -/
theorem exact0 (hs : s.card = n) (hz : ∀ x ∈ s, (P n).eval x = 0) {p : ℝ[X]} (hp : p.natDegree < 2 * n) :
    ∫ x in (-1:ℝ)..1, p.eval x = ∑ x ∈ s, p.eval x * ∫ t in (-1:ℝ)..1, (Lagrange.basis s id x).eval t := by
  have hn : P n ≠ 0 := P_ne
  have hdiv := EuclideanDomain.div_add_mod p (P n)
  set d := p / P n with hd
  set r := p % P n with hr
  have hrd : r.degree < (n : ℕ) := by
    have := EuclideanDomain.mod_lt p hn
    rw [← natDegree_P n, ← degree_eq_natDegree hn]; exact this
  have hdd : d.natDegree < n := by
    by_cases h0 : d = 0
    · rw [h0, natDegree_zero]; omega
    have h1 := degree_div_le p (P n)
    have h2 : (P n).degree + d.degree = p.degree := by
      refine Polynomial.degree_add_div hn ?_
      by_contra hlt
      exact h0 ((Polynomial.div_eq_zero_iff hn).2 (not_le.1 hlt))
    have hp0 : p ≠ 0 := by rintro rfl; exact h0 (by rw [hd, EuclideanDomain.zero_div])
    rw [degree_eq_natDegree hn, degree_eq_natDegree h0, degree_eq_natDegree hp0, natDegree_P] at h2
    have : n + d.natDegree = p.natDegree := by exact_mod_cast h2
    omega
  have hev : ∀ x ∈ s, p.eval x = r.eval x := fun x hx => by
    conv_lhs => rw [← hdiv]
    rw [eval_add, eval_mul, hz x hx, zero_mul, zero_add]
  have h3 := Lagrange.eq_interpolate (s := s) (v := id) (f := r) (Set.injOn_id _) (by rw [hs]; exact hrd)
  have h4 : ∫ x in (-1:ℝ)..1, p.eval x = ∫ x in (-1:ℝ)..1, r.eval x := by
    conv_lhs => rw [← hdiv]
    simp only [eval_add]
    rw [integral_add (ii _ _ _) (ii _ _ _), orth hdd, zero_add]
  rw [h4]
  conv_lhs => rw [h3]
  rw [Lagrange.interpolate_apply, intervalIntegral_sum]
  refine Finset.sum_congr rfl fun x hx => ?_
  simp only [eval_mul, eval_C, id, intervalIntegral.integral_const_mul, hev x hx]

/-- the weights -/
theorem weight (hs : s.card = n) (hz : ∀ x ∈ s, (P n).eval x = 0) {c : ℝ} (hc : c ∈ s) :
    (derivative (P n)).eval c ≠ 0 ∧ ∫ t in (-1:ℝ)..1, (Lagrange.basis s id c).eval t = w n c := by
  obtain ⟨q, hq, hq0, hd⟩ := factor (hz c hc)
  obtain ⟨c1, c2⟩ := zero_mem (hz c hc)
  set W := ∫ t in (-1:ℝ)..1, (Lagrange.basis s id c).eval t with hW
  have hqc : q.eval c = (derivative (P n)).eval c := by rw [hq]; simp
  have hqx : ∀ x ∈ s, x ≠ c → q.eval x = 0 := fun x hx hne => by
    have := hz x hx
    rw [hq, eval_mul, eval_sub, eval_X, eval_C] at this
    exact (mul_eq_zero.1 this).resolve_left (sub_ne_zero.2 hne)
  have sum1 : ∀ p : ℝ[X], (∀ x ∈ s, x ≠ c → p.eval x = 0) → ∑ x ∈ s, p.eval x * ∫ t in (-1:ℝ)..1, (Lagrange.basis s id x).eval t = p.eval c * W :=
    fun p hp => Finset.sum_eq_single_of_mem c hc fun x hx hne => by rw [hp x hx hne, zero_mul]
  have d1 : (derivative q).natDegree ≤ q.natDegree := (natDegree_derivative_le q).trans (Nat.sub_le _ _)
  have i1 := exact0 hs hz (p := derivative (P n) * q) (by
    refine lt_of_le_of_lt natDegree_mul_le ?_
    have := (natDegree_derivative_le (P n)); rw [natDegree_P] at this; omega)
  have i2 := exact0 hs hz (p := q ^ 2) (by rw [natDegree_pow]; omega)
  rw [sum1 _ fun x hx hne => by rw [eval_mul, hqx x hx hne, mul_zero], eval_mul, hqc] at i1
  rw [sum1 _ fun x hx hne => by rw [eval_pow, hqx x hx hne]; ring, eval_pow, hqc] at i2
  have h := integral_eq_sub_of_hasDerivAt (f := fun x => ((X - C c) * q ^ 2).eval x) (f' := fun x => (derivative ((X - C c) * q ^ 2)).eval x)
    (a := -1) (b := 1) (fun x _ => Polynomial.hasDerivAt _ x) (ii _ _ _)
  have e : derivative ((X - C c) * q ^ 2) = C 2 * (derivative (P n) * q) - q ^ 2 := by
    rw [hq]
    simp only [derivative_mul, derivative_sub, derivative_X, derivative_C, derivative_pow, sub_zero, one_mul]
    norm_num
    rw [show (C 2 : ℝ[X]) = 2 from rfl]
    ring
  have h2 : ∫ x in (-1:ℝ)..1, (C 2 * (derivative (P n) * q) - q ^ 2).eval x =
      2 * (∫ x in (-1:ℝ)..1, (derivative (P n) * q).eval x) - ∫ x in (-1:ℝ)..1, (q ^ 2).eval x := by
    simp only [eval_sub]
    rw [integral_sub (ii _ _ _) (ii _ _ _)]
    congr 1
    rw [← intervalIntegral.integral_const_mul]
    simp only [eval_mul, eval_C]
  rw [e, h2, i1, i2] at h
  have q1 : q.eval 1 * (1 - c) = 1 := by
    have := P_one n
    rw [hq, eval_mul, eval_sub, eval_X, eval_C] at this
    linarith
  have q2 : (q.eval (-1) * (1 + c)) ^ 2 = 1 := by
    have : (P n).eval (-1) = (-1) ^ n := by rw [P_symm, P_one, mul_one]
    rw [hq, eval_mul, eval_sub, eval_X, eval_C] at this
    rw [show q.eval (-1) * (1 + c) = -((-1) ^ n) by rw [← this]; ring, neg_sq, ← pow_mul, mul_comm, pow_mul]; simp
  set D := (derivative (P n)).eval c
  have hw : (1 - c ^ 2) * (D ^ 2 * W) = 2 := by
    simp only [eval_mul, eval_sub, eval_X, eval_C, eval_pow] at h
    have hc1 : 1 - c ≠ 0 := by linarith
    have hc2 : 1 + c ≠ 0 := by linarith
    have h5 : D ^ 2 * W = (1 - c) * q.eval 1 ^ 2 + (1 + c) * q.eval (-1) ^ 2 := by linear_combination h
    rw [h5]
    linear_combination (1 + c) * (q.eval 1 * (1 - c) + 1) * q1 + (1 - c) * q2
  have hD : D ≠ 0 := by intro h0; rw [h0] at hw; norm_num at hw
  refine ⟨hD, ?_⟩
  have hc3 : 1 - c ^ 2 ≠ 0 := by intro h0; rw [h0] at hw; norm_num at hw
  rw [w, eq_div_iff (mul_ne_zero hc3 (pow_ne_zero 2 hD))]
  linear_combination hw

theorem w_pos (hs : s.card = n) (hz : ∀ x ∈ s, (P n).eval x = 0) {c : ℝ} (hc : c ∈ s) : 0 < w n c := by
  obtain ⟨c1, c2⟩ := zero_mem (hz c hc)
  have := (weight hs hz hc).1
  have : 0 < 1 - c ^ 2 := by nlinarith
  rw [w]; positivity

/-- the Gauss-Legendre rule -/
theorem gauss (hs : s.card = n) (hz : ∀ x ∈ s, (P n).eval x = 0) {p : ℝ[X]} (hp : p.natDegree < 2 * n) :
    ∑ x ∈ s, w n x * p.eval x = ∫ x in (-1:ℝ)..1, p.eval x := by
  rw [exact0 hs hz hp]
  exact Finset.sum_congr rfl fun x hx => by rw [(weight hs hz hx).2, mul_comm]

theorem P_symm' (n : ℕ) (x : ℝ) : (derivative (P n)).eval (-x) ^ 2 = (derivative (P n)).eval x ^ 2 := by
  have e : (P n).comp (-X) = C ((-1) ^ n) * P n := by
    refine Polynomial.funext fun x => ?_
    rw [eval_comp, eval_neg, eval_X, P_symm]; simp
  have h := congrArg (fun p => eval x (derivative p)) e
  simp only [derivative_comp, derivative_C_mul, eval_mul, eval_comp, derivative_neg, derivative_X, eval_neg, eval_one, eval_X, eval_C] at h
  have h2 : (derivative (P n)).eval (-x) = -((-1) ^ n * (derivative (P n)).eval x) := by linarith
  rw [h2, neg_sq, mul_pow, ← pow_mul, mul_comm n, pow_mul]; simp

theorem w_neg (n : ℕ) (x : ℝ) : w n (-x) = w n x := by rw [w, w, P_symm', neg_sq]

theorem P_zero {n : ℕ} (h : n % 2 = 1) : (P n).eval 0 = 0 := by
  have := P_symm n 0
  rw [neg_zero, (Nat.odd_iff.2 h).neg_one_pow] at this
  linarith

end Mpsci.legD

namespace Mpsci

open Classical Num Polynomial legD Filter

theorem mp.legendre_fin (n : ℕ) (x : ℝ) : mp.legendre n (fin x) = .ok (fin ((P n).eval x)) := by
  rw [mp.legendre, aeval_S, ← eval_P]

theorem mp.diff_legendre (n : ℕ) (x : ℝ) : mp.diff (mp.legendre n) (fin x) = .ok (fin ((derivative (P n)).eval x)) :=
  mp.diff_eq (Eventually.of_forall fun t => mp.legendre_fin n t) (Polynomial.hasDerivAt _ x)

namespace fun_

/-- the starting point of search number `k` -/
noncomputable def x0 (n k : ℕ) : ℝ := (1 + 1 / (8 * (n:ℝ) ^ 2) * (-1 + 1 / n)) * Real.cos (Real.pi * (4 * k - 1) / (4 * n + 2))

theorem rootApprox_eq {n : ℕ} (h : 1 ≤ n) (k : ℕ) : rootApprox n k = .ok (fin (x0 n k)) := by
  have h0 : (n:ℝ) ≠ 0 := by positivity
  have h1 : (8:ℝ) * n ^ 2 ≠ 0 := by positivity
  have h2 : (4:ℝ) * n + 2 ≠ 0 := by positivity
  simp only [rootApprox, one_def, ofNat_def, mp.ipow_fin, fin_mul, fin_div _ h1, fin_div _ h0, fin_div _ h2, ok_bind, neg_fin, fin_add, fin_sub, mp.pi_def,
    mp.cos_fin, pure_eq_ok, x0]

/-- the nodes made from the positive zeros -/
def nodes (n : ℕ) (R : List ℝ) : List ℝ := R.map (- ·) ++ (if n % 2 = 1 then [0] else []) ++ R.reverse

theorem rootsLegendre_eval {findroot : (Num → M Num) → Num → M Num} {n : ℕ} (h : 4 ≤ n) {R : List ℝ}
    (hf : (List.range (n / 2)).mapM (fun i => findroot (mp.legendre n) (fin (x0 n (i + 1)))) = .ok (R.map fin))
    (hR : ∀ x ∈ R, 1 - x ^ 2 ≠ 0 ∧ (derivative (P n)).eval x ≠ 0) (h0 : n % 2 = 1 → (derivative (P n)).eval 0 ≠ 0) :
    rootsLegendre findroot n = .ok ((nodes n R).map fin, ((nodes n R).map (w n)).map fin) := by
  have a1 : ¬ ((n:ℤ) < 1) := by omega
  have a2 : ¬ ((n:ℤ) = 1) := by omega
  have a3 : ¬ ((n:ℤ) = 2) := by omega
  have a4 : ¬ ((n:ℤ) = 3) := by omega
  have e1 : (List.range (n / 2)).mapM (fun i => rootApprox n (i + 1)) = .ok ((List.range (n / 2)).map fun i => fin (x0 n (i + 1))) :=
    py.mapM_fin _ fun i _ => rootApprox_eq (by omega) _
  have e2 : ((List.range (n / 2)).map fun i => fin (x0 n (i + 1))).mapM (fun x0 => findroot (mp.legendre n) x0) = .ok (R.map fin) := by
    rw [List.mapM_map]; exact hf
  have e3 : (R.map fin).mapM (fun root => mp.diff (mp.legendre n) root) = .ok (R.map fun x => fin ((derivative (P n)).eval x)) := by
    rw [List.mapM_map]; exact py.mapM_fin _ fun x _ => mp.diff_legendre n x
  have e4 : (List.zip (R.map fin) (R.map fun x => fin ((derivative (P n)).eval x))).mapM
      (fun x => 2 /. ((1 - mp.ipow x.1 2) * mp.ipow x.2 2)) = .ok (R.map fun x => fin (w n x)) := by
    rw [List.zip_map', List.mapM_map]
    refine py.mapM_fin _ fun x hx => ?_
    obtain ⟨b1, b2⟩ := hR x hx
    simp only [Function.comp_apply, one_def, ofNat_def, mp.ipow_fin, fin_sub, fin_mul, fin_div _ (mul_ne_zero b1 (pow_ne_zero 2 b2)), w]
  have wn : (R.map (- ·)).map (w n) = R.map (w n) := by
    rw [List.map_map]; exact List.map_congr_left fun x _ => w_neg n x
  rw [rootsLegendre, if_neg a1, if_neg a2, if_neg a3, if_neg a4]
  simp only [Int.toNat_natCast, e1, ok_bind, e2, e3, e4]
  by_cases ho : n % 2 = 1
  · have b := h0 ho
    simp only [if_pos ho, zero_def, mp.diff_legendre, ok_bind, mp.ipow_fin, ofNat_def, fin_div _ (pow_ne_zero 2 b), pure_eq_ok, nodes,
      List.map_append, wn, List.map_reverse, List.map_map]
    simp [Function.comp_def, w]
  · simp only [if_neg ho, ok_bind, pure_eq_ok, nodes, List.map_append, wn, List.map_reverse, List.map_map]
    simp [Function.comp_def]

end fun_

end Mpsci
