import Verif.Lemmas.Dist.Nct
import Verif.Lemmas.Dist.Chi
import Verif.Lemmas.Dist.Normal
import Verif.Lemmas.Quantile
import Verif.Spec.Moments
import Verif.Spec.Pdf
import Mathlib.Algebra.Polynomial.Derivative
import Mathlib.Algebra.Polynomial.Eval.Algebra
import Mathlib.Analysis.Calculus.Deriv.Polynomial
import Mathlib.Analysis.Calculus.IteratedDeriv.Defs
import Mathlib.Analysis.SpecialFunctions.ExpDeriv

/-!
# C47: moments of the noncentral t distribution
-/

namespace Mpsci.nct

open Classical Num Polynomial

/-- The polynomial with the given ascending coefficients. -/
noncomputable def ofList : List ℤ → ℝ[X]
  | [] => 0
  | a :: l => C (a : ℝ) + X * ofList l

theorem ofList_append (l m : List ℤ) : ofList (l ++ m) = ofList l + X ^ l.length * ofList m := by
  induction l with
  | nil => simp [ofList]
  | cons a l ih => simp only [List.cons_append, ofList, ih, List.length_cons, pow_succ]; ring

theorem ofList_zipWith : ∀ (l m : List ℤ), l.length = m.length →
    ofList (List.zipWith (· + ·) l m) = ofList l + ofList m
  | [], [], _ => by simp [ofList]
  | a :: l, b :: m, h => by
    simp only [List.zipWith, ofList, ofList_zipWith l m (by simpa using h), Int.cast_add, C_add]
    ring

theorem enumMul_length (k : ℤ) (l : List ℤ) : (enumMul k l).length = l.length := by
  induction l generalizing k with
  | nil => rfl
  | cons a l ih => simp [enumMul, ih]

theorem ofList_enumMul (k : ℤ) (l : List ℤ) :
    ofList (enumMul k l) = derivative (X * ofList l) + C ((k : ℝ) - 1) * ofList l := by
  induction l generalizing k with
  | nil => simp [enumMul, ofList]
  | cons a l ih =>
    simp only [enumMul, ofList, ih, derivative_mul, derivative_X, derivative_add, derivative_C,
      C_sub, Int.cast_mul, C_mul, Int.cast_add, Int.cast_one, C_add, C_1]
    ring

theorem polyStep_eq (l : List ℤ) :
    ofList (polyStep (l ++ [0, 1])) =
      derivative (ofList (l ++ [0, 1])) + X * ofList (l ++ [0, 1]) := by
  have h1 : (l ++ [0, 1]).take ((l ++ [0, 1]).length - 2) = l := by simp
  have h2 : ofList (enumMul 1 ((l ++ [0, 1]).drop 1)) = derivative (ofList (l ++ [0, 1])) := by
    rw [ofList_enumMul]
    cases l with
    | nil => simp [ofList]
    | cons a l => simp [ofList]
  unfold polyStep
  rw [h1, ofList_append, ofList_zipWith _ _ (by simp [enumMul_length]), h2]
  have h3 : (List.zipWith (· + ·) (enumMul 1 ((l ++ [0, 1]).drop 1)) (0 :: l)).length =
      l.length + 1 := by simp [enumMul_length]
  rw [h3, ofList_append]
  simp only [ofList, Int.cast_zero, Int.cast_one, C_0, C_1, pow_succ]
  ring

theorem polyStep_form (l : List ℤ) : ∃ m, polyStep l = m ++ [0, 1] := ⟨_, rfl⟩

theorem iterate_form (k : ℕ) : ∃ l, polyStep^[k] [0, 1] = l ++ [0, 1] := by
  cases k with
  | zero => exact ⟨[], rfl⟩
  | succ k => rw [Function.iterate_succ_apply']; exact polyStep_form _

theorem polyCoeffs_succ (k : ℕ) :
    ofList (polyCoeffs (k + 1)) = derivative (ofList (polyCoeffs k)) + X * ofList (polyCoeffs k) := by
  cases k with
  | zero => simp [polyCoeffs, ofList]
  | succ k =>
    obtain ⟨l, hl⟩ := iterate_form k
    have e : polyCoeffs (k + 1) = l ++ [0, 1] := by simp [polyCoeffs, hl]
    have e2 : polyCoeffs (k + 1 + 1) = polyStep (l ++ [0, 1]) := by
      simp only [polyCoeffs, Nat.add_eq_zero_iff, one_ne_zero, and_false, if_false,
        Nat.add_sub_cancel, Function.iterate_succ_apply', hl]
    rw [e, e2, polyStep_eq]

theorem polyvalAsc_eq (c : List ℤ) (x : ℝ) : polyvalAsc c (fin x) = fin ((ofList c).eval x) := by
  induction c with
  | nil => simp [polyvalAsc, ofList]
  | cons a c ih =>
    have : polyvalAsc (a :: c) (fin x) = fin a + fin x * polyvalAsc c (fin x) := rfl
    rw [this, ih]
    simp [ofList]

/-- C47 The coefficients computed by the code give the polynomial
`exp(-x²/2) (d/dx)ⁿ exp(x²/2)`, for every order `n` and every `x`. -/
theorem polyCoeffs_spec (n : ℕ) (x : ℝ) :
    polyvalAsc (polyCoeffs n) (fin x) =
      fin (Real.exp (-x ^ 2 / 2) * iteratedDeriv n (fun t => Real.exp (t ^ 2 / 2)) x) := by
  rw [polyvalAsc_eq]
  congr 1
  have key : ∀ n : ℕ, iteratedDeriv n (fun t => Real.exp (t ^ 2 / 2)) =
      fun x => (ofList (polyCoeffs n)).eval x * Real.exp (x ^ 2 / 2) := by
    intro n
    induction n with
    | zero => funext x; simp [polyCoeffs, ofList]
    | succ n ih =>
      funext x
      rw [iteratedDeriv_succ, ih]
      have h1 : HasDerivAt (fun t : ℝ => t ^ 2 / 2) x x := by
        have := ((hasDerivAt_id x).pow 2).div_const 2
        simpa using this
      have h2 := ((ofList (polyCoeffs n)).hasDerivAt x).mul h1.exp
      rw [polyCoeffs_succ]
      refine HasDerivAt.deriv (h2.congr_deriv ?_)
      simp only [eval_add, eval_mul, eval_X]
      ring
  rw [key]
  have : Real.exp (-x ^ 2 / 2) * Real.exp (x ^ 2 / 2) = 1 := by
    rw [← Real.exp_add]; simp; ring
  linear_combination -(ofList (polyCoeffs n)).eval x * this

/-- Order 4: `x⁴ + 6 x² + 3`. -/
example : polyCoeffs 4 = [3, 0, 6, 0, 1] := by decide

theorem exp_gamma {a b : ℝ} (ha : 0 < a) (hb : 0 < b) (t : ℝ) :
    Real.exp (t + Real.log (Real.Gamma a) - Real.log (Real.Gamma b)) =
      Real.exp t * Real.Gamma a / Real.Gamma b := by
  rw [Real.exp_sub, Real.exp_add, Real.exp_log (Real.Gamma_pos_of_pos ha),
    Real.exp_log (Real.Gamma_pos_of_pos hb)]

/-- C47 The noncentral moment of order `n < df` is
`(df/2)^(n/2) Γ((df-n)/2)/Γ(df/2) · exp(-nc²/2) (d/dnc)ⁿ exp(nc²/2)`. -/
theorem noncentralMoment_spec (n : ℕ) {df : ℝ} (h : (n : ℝ) < df) (nc : ℝ) :
    noncentralMoment n (fin df) (fin nc) =
      .ok (fin ((df / 2) ^ ((n : ℝ) / 2) * Real.Gamma ((df - n) / 2) / Real.Gamma (df / 2) *
        (Real.exp (-nc ^ 2 / 2) * iteratedDeriv n (fun t => Real.exp (t ^ 2 / 2)) nc))) := by
  have hdf : 0 < df / 2 := by have : (0 : ℝ) ≤ n := n.cast_nonneg; linarith
  have h1 : 0 < (df - n) / 2 := by linarith
  have hn : ¬ ((n : ℤ) < 0) := by omega
  simp only [noncentralMoment, hn, if_false, fin_le, Int.cast_natCast, h.not_ge, ofNat_def,
    fin_div_ofNat, ok_bind, mp.log_pos hdf, fin_sub, mp.loggamma_pos h1, mp.loggamma_pos hdf,
    fin_mul, fin_add, mp.exp_fin, Int.toNat_natCast, polyCoeffs_spec, pure_eq_ok, exp_gamma h1 hdf]
  rw [Real.rpow_def_of_pos hdf, mul_comm (Real.log _)]

/-- C47 Moments of order at least `df` do not exist and are nan; a negative order raises. -/
theorem noncentralMoment_edges (n : ℕ) (df nc : ℝ) :
    (df ≤ n → noncentralMoment n (fin df) (fin nc) = .ok nan) ∧
    (∀ k : ℤ, k < 0 → noncentralMoment k (fin df) (fin nc) = .error .valueError) := by
  refine ⟨fun h => ?_, fun k hk => ?_⟩
  · have hn : ¬ ((n : ℤ) < 0) := by omega
    simp [noncentralMoment, h]
  · simp [noncentralMoment, hk]

/-- C50 `mean` is the first noncentral moment, for `nc > 0` ... -/
theorem mean_partial {df nc : ℝ} (h : 1 < df) (hn : 0 < nc) :
    mean (fin df) (fin nc) = noncentralMoment 1 (fin df) (fin nc) := by
  have h1 : 0 < (df - 1) / 2 := by linarith
  have h2 : 0 < df / 2 := by linarith
  have e1 : polyvalAsc (polyCoeffs 1) (fin nc) = fin nc := by
    simp [polyCoeffs, polyvalAsc]
  simp only [mean, noncentralMoment, mp.log_pos hn, ofNat_def, fin_div_ofNat, ok_bind, one_def,
    fin_sub, mp.log_pos h2, mp.loggamma_pos h1, mp.loggamma_pos h2, fin_add, mp.exp_fin,
    Int.cast_one, fin_le, h.not_ge, if_false, fin_mul, Int.toNat_one, e1,
    show ¬ (1 : ℤ) < 0 by norm_num, pure_eq_ok]
  congr 2
  rw [exp_gamma h1 h2, exp_gamma h1 h2, Real.exp_add, Real.exp_log hn]
  ring_nf

/-- C50 ... but for `nc < 0` it takes the logarithm of a negative number, although the first
noncentral moment is an ordinary negative number there. -/
theorem mean_negative_nc (df : Num) {nc : ℝ} (hn : nc < 0) :
    mean df (fin nc) = .error .complexResult := by
  simp [mean, mp.log_neg hn]

/-- C50 `var` is the second noncentral moment minus the square of the first. -/
theorem var_spec {df : ℝ} (h : 2 < df) (nc : ℝ) : ∃ m1 m2 : ℝ,
    noncentralMoment 1 (fin df) (fin nc) = .ok (fin m1) ∧
    noncentralMoment 2 (fin df) (fin nc) = .ok (fin m2) ∧
    var (fin df) (fin nc) = .ok (fin (m2 - m1 ^ 2)) := by
  have h1 : 0 < (df - 1) / 2 := by linarith
  have h2 : 0 < df / 2 := by linarith
  have h3 : 0 < (df - 2) / 2 := by linarith
  have hd : df - 2 ≠ 0 := by linarith
  have e1 : polyvalAsc (polyCoeffs 1) (fin nc) = fin nc := by
    simp [polyCoeffs, polyvalAsc]
  have e2 : polyvalAsc (polyCoeffs 2) (fin nc) = fin (1 + nc ^ 2) := by
    simp [polyCoeffs, polyvalAsc, polyStep, enumMul]; ring
  have hg : Real.Gamma (df / 2) = (df - 2) / 2 * Real.Gamma ((df - 2) / 2) := by
    rw [← Real.Gamma_add_one h3.ne']; congr 1; ring
  refine ⟨Real.exp (1 / 2 * Real.log (df / 2) + Real.log (Real.Gamma ((df - 1) / 2)) -
      Real.log (Real.Gamma (df / 2))) * nc,
    Real.exp (2 / 2 * Real.log (df / 2) + Real.log (Real.Gamma ((df - 2) / 2)) -
      Real.log (Real.Gamma (df / 2))) * (1 + nc ^ 2), ?_, ?_, ?_⟩
  · simp only [noncentralMoment, ofNat_def, fin_div_ofNat, ok_bind,
      fin_sub, mp.log_pos h2, mp.loggamma_pos h1, mp.loggamma_pos h2, fin_add, mp.exp_fin,
      Int.cast_one, fin_le, (show ¬ df ≤ 1 by linarith), if_false, fin_mul, Int.toNat_one, e1,
      show ¬ (1 : ℤ) < 0 by norm_num, pure_eq_ok]
  · simp only [noncentralMoment, ofNat_def, fin_div_ofNat, ok_bind,
      fin_sub, mp.log_pos h2, mp.loggamma_pos h3, mp.loggamma_pos h2, fin_add, mp.exp_fin,
      Int.cast_ofNat, fin_le, h.not_ge, if_false, fin_mul, show (2 : ℤ).toNat = 2 from rfl, e2,
      show ¬ (2 : ℤ) < 0 by norm_num, pure_eq_ok]
  · simp only [var, ofNat_def, fin_div_ofNat, ok_bind, fin_sub, one_def, mp.loggamma_pos h1,
      mp.loggamma_pos h2, mp.exp_fin, fin_div _ hd, mp.ipow_fin, fin_add, fin_mul, pure_eq_ok]
    congr 2
    rw [exp_gamma h1 h2, exp_gamma h3 h2, Real.exp_sub,
      Real.exp_log (Real.Gamma_pos_of_pos h1), Real.exp_log (Real.Gamma_pos_of_pos h2)]
    have s1 : Real.exp (1 / 2 * Real.log (df / 2)) ^ 2 = df / 2 := by
      rw [← Real.exp_nat_mul, ← mul_assoc]
      norm_num
      exact Real.exp_log h2
    have s2 : Real.exp (2 / 2 * Real.log (df / 2)) = df / 2 := by
      rw [div_self two_ne_zero, one_mul, Real.exp_log h2]
    rw [s2, mul_pow, div_pow, div_pow, mul_pow, s1, hg]
    have := (Real.Gamma_pos_of_pos h3).ne'
    field_simp

example : ∃ m1 m2 : ℝ, noncentralMoment 1 (fin 5) (fin (-3)) = .ok (fin m1) ∧
    noncentralMoment 2 (fin 5) (fin (-3)) = .ok (fin m2) ∧
    var (fin 5) (fin (-3)) = .ok (fin (m2 - m1 ^ 2)) := var_spec (by norm_num) _

/-! ### The density -/

open Spec MeasureTheory Set

variable {v m : ℝ}

/-- C03, C64: for `df > 0`, `nc ≠ 0` the series is finite for every real `x`, on either side of 0, and `pdf` is a probability density. -/
theorem isPdf (hv : 0 < v) (hm : m ≠ 0) : IsPdf ∅ (pdf · (fin v) (fin m)) :=
  ⟨finite_empty, nctD.f v m, fun x _ => pdf_eval hv hm x, fun x => (nctD.f_pos hv x).le, (nctD.int_one hv).1, (nctD.int_one hv).2⟩

/-- C03, C64: `pdf` is the density of `(Z + nc) / (S / √df)` for a standard normal `Z` and an independent `S` with the chi distribution: given `S = t`, this
is at most `x` with probability `normal.cdf(x t/√df - nc)`. -/
theorem isRatio (hv : 0 < v) (hm : m ≠ 0) : ∃ f F g : ℝ → ℝ, RealFn (pdf · (fin v) (fin m)) f ∧ RealFn (normal.cdf · (fin 0) (fin 1)) F ∧
    RealFnOff {0} (chi.pdf · (fin v)) g ∧ ∀ x, ∫ t in Iic x, f t = ∫ t, F (x * (t / √v) - m) * g t := by
  refine ⟨nctD.f v m, Phi, chi.f v, pdf_eval hv hm, fun x => ?_, fun x hx => chi.pdf_eval hv x (Or.inr hx), nctD.cdf_chi hv⟩
  change normal.cdf (fin x) (fin 0) (fin 1) = _
  rw [normal.cdf_eval one_pos, sub_zero, div_one]

/-- C04, C42, C64 -/
theorem isLogOf (hv : 0 < v) (hm : m ≠ 0) : IsLogOf ∅ (pdf · (fin v) (fin m)) (logpdf · (fin v) (fin m)) :=
  isLogOf_of (P := univ) (g := nctD.f v m) (fun _ _ _ => nctD.f_pos hv _) (fun x _ hx => absurd (mem_univ x) hx)
    (fun x _ => pdf_eval hv hm x) (fun x _ _ => logpdf_eval hv hm x) (fun x _ hx => absurd (mem_univ x) hx)

/-- C11, C64 -/
theorem mirror (hv : 0 < v) (hm : m ≠ 0) (x : ℝ) : pdf (fin (-x)) (fin v) (fin m) = pdf (fin x) (fin v) (fin (-m)) := by
  rw [pdf_eval hv hm, pdf_eval hv (neg_ne_zero.2 hm), nctD.f_neg]

/-- C12 (finding): in the central case `nc = 0` the first term of the series is nan (`0 * log(0)`), at every `x ≠ 0`. -/
theorem central_fails (hv : 0 < v) (x : ℝ) : pdfTerm (fin x) (fin v) (fin 0) 0 = .ok nan := by
  have h4 : 0 < v + x ^ 2 := by positivity
  have h5 : 0 < 2 / (v + x ^ 2) := by positivity
  have h1 : 0 < (v + 0 + 1) / 2 := by positivity
  simp only [pdfTerm, fin_mul, mul_zero, clog, if_true, Nat.cast_zero, mp.ipow_fin, ofNat_def, one_def, fin_add, fin_div _ (two_ne_zero (α := ℝ)), ok_bind,
    mp.loggamma_pos h1, fin_div _ h4.ne', mp.log_pos h5, mp.loggamma_pos (show (0:ℝ) < 0 + 1 by norm_num), pure_eq_ok, fin_mul_ninf]
  simp [mp.exp, scaleInf]

theorem poly_deriv (n : ℕ) : derivative (ofList (polyCoeffs n)) = (n : ℝ[X]) * ofList (polyCoeffs (n - 1)) := by
  induction n with
  | zero => simp [polyCoeffs, ofList]
  | succ n ih =>
    rw [polyCoeffs_succ, derivative_add, derivative_mul, derivative_X, ih, derivative_mul, derivative_natCast, Nat.add_sub_cancel]
    cases n with
    | zero => simp
    | succ k =>
      rw [Nat.add_sub_cancel, polyCoeffs_succ k]
      push_cast; ring

/-- the polynomials are the moments of the normal distribution with mean `nc` -/
theorem P_eq (n : ℕ) (m : ℝ) : nctD.P n m = (ofList (polyCoeffs n)).eval m := by
  induction n using Nat.strong_induction_on with
  | _ n ih =>
    cases n with
    | zero => simp [nctD.P_zero, polyCoeffs, ofList]
    | succ n =>
      rw [nctD.P_succ, ih n (by omega), polyCoeffs_succ, poly_deriv, eval_add, eval_mul, eval_mul, eval_X, eval_natCast]
      rcases Nat.eq_zero_or_pos n with rfl | hn
      · simp
      · rw [ih (n - 1) (by omega)]; ring

theorem moment_eval (n : ℕ) (h : (n : ℝ) < v) (m : ℝ) : noncentralMoment n (fin v) (fin m) =
    .ok (fin ((v / 2) ^ ((n : ℝ) / 2) * Real.Gamma ((v - n) / 2) / Real.Gamma (v / 2) * nctD.P n m)) := by
  have e := polyCoeffs_spec n m
  rw [polyvalAsc_eq] at e
  injection e with e
  rw [noncentralMoment_spec n h, P_eq, e]

/-- C37, C47, C50, C64: `noncentral_moment(n)` is the n-th moment of the density, for every order `n < df` -/
theorem isMoment (n : ℕ) (h : (n : ℝ) < v) (hm : m ≠ 0) : IsMoment ∅ (pdf · (fin v) (fin m)) n (noncentralMoment n (fin v) (fin m)) := by
  have hv : 0 < v := lt_of_le_of_lt n.cast_nonneg h
  exact ⟨finite_empty, nctD.f v m, _, fun x _ => pdf_eval hv hm x, moment_eval n h m, (nctD.mom hv h).1, (nctD.mom hv h).2⟩

/-- C37, C47, C64: the orders for which it returns nan are those for which there is no moment -/
theorem moment_nan (n : ℕ) (hv : 0 < v) (hm : m ≠ 0) (h : v ≤ n) : noncentralMoment n (fin v) (fin m) = .ok nan ∧
    ¬ ∃ r, IsMoment ∅ (pdf · (fin v) (fin m)) n r := by
  refine ⟨(noncentralMoment_edges n v m).1 h, ?_⟩
  rintro ⟨r, hE, g, _, hg, _, hi, _⟩
  refine nctD.not_mom (m := m) hv h (hi.congr ?_)
  filter_upwards [ae_eq_of_off hE hg (fun x _ => pdf_eval hv hm x)] with x hx
  rw [hx]

/-- C37, C64 -/
theorem isMean (h : 1 < v) (hm : 0 < m) : IsMean ∅ (pdf · (fin v) (fin m)) (mean (fin v) (fin m)) := by
  have h1 : ((1:ℕ):ℝ) < v := by simpa using h
  obtain ⟨hE, f, r, hf, hr, hi, he⟩ := isMoment 1 h1 hm.ne'
  refine ⟨hE, f, r, hf, ?_, by simpa using hi, by simpa using he⟩
  rw [mean_partial h hm]; exact_mod_cast hr

/-- C37, C64 -/
theorem isVar (h : 2 < v) (hm : m ≠ 0) : IsVar ∅ (pdf · (fin v) (fin m)) (var (fin v) (fin m)) := by
  have hv : 0 < v := by linarith
  obtain ⟨m1, m2, e1, e2, e3⟩ := var_spec h m
  have h1 : ((1:ℕ):ℝ) < v := by simpa using (by linarith : 1 < v)
  have h2 : ((2:ℕ):ℝ) < v := by simpa using h
  have k1 := moment_eval 1 h1 m
  have k2 := moment_eval 2 h2 m
  have j1 := nctD.mom (m := m) hv h1
  have j2 := nctD.mom (m := m) hv h2
  have q1 : ∫ x, x ^ 1 * nctD.f v m x = m1 := by
    rw [j1.2]; have := k1.symm.trans (by exact_mod_cast e1); simpa using this
  have q2 : ∫ x, x ^ 2 * nctD.f v m x = m2 := by
    rw [j2.2]; have := k2.symm.trans (by exact_mod_cast e2); simpa using this
  have hmv : HasMV (nctD.f v m) m1 (m2 - m1 ^ 2) :=
    ⟨(nctD.int_one hv).1, (nctD.int_one hv).2, by simpa using j1.1, by simpa using q1, j2.1, by rw [q2]; ring⟩
  exact hmv.isVar finite_empty (fun x _ => pdf_eval hv hm x) e3

/-- C41 -/
theorem support_spec (df nc : Num) : support df nc = .ok (ninf, pinf) := rfl

/-- Non-vacuity: the first moment for `df = 3`, `nc = 1` -/
example : IsMean ∅ (pdf · (fin 3) (fin 1)) (mean (fin 3) (fin 1)) := isMean (by norm_num) one_pos

end Mpsci.nct
