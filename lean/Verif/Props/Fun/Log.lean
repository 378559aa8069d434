import Verif.Model.Fun.Log
import Verif.Spec.Stats
import Mathlib.Data.Nat.Choose.Basic
import Mathlib.NumberTheory.Harmonic.GammaDeriv

/-! Properties of `fun.logsumexp` and `fun.logbinomial`. -/

namespace Mpsci.fun_

open Classical Num Spec

/-- C15: for integers `0 <= k <= n`, `logbinomial(n, k)` is the logarithm of the binomial
coefficient. -/
theorem logbinomial_eq {n k : ℕ} (h : k ≤ n) :
    logbinomial (fin n) (fin k) = .ok (fin (Real.log (n.choose k))) := by
  have h1 : (0:ℝ) ≤ n := Nat.cast_nonneg n
  have h2 : (0:ℝ) ≤ k := Nat.cast_nonneg k
  have h3 : (k:ℝ) ≤ n := by exact_mod_cast h
  have e1 : mp.loggamma (fin ((n:ℝ) + 1)) = .ok (fin (Real.log (n.factorial))) := by
    rw [mp.loggamma_pos (by linarith), Real.Gamma_nat_eq_factorial]
  have e2 : mp.loggamma (fin ((k:ℝ) + 1)) = .ok (fin (Real.log (k.factorial))) := by
    rw [mp.loggamma_pos (by linarith), Real.Gamma_nat_eq_factorial]
  have e3 : mp.loggamma (fin ((n:ℝ) + 1 + (-(k:ℝ) + 0))) =
      .ok (fin (Real.log ((n - k).factorial))) := by
    rw [show (n:ℝ) + 1 + (-(k:ℝ) + 0) = ((n - k : ℕ) : ℝ) + 1 by rw [Nat.cast_sub h]; ring,
      mp.loggamma_pos (by positivity), Real.Gamma_nat_eq_factorial]
  have e4 : Real.log (n.choose k) = Real.log n.factorial - Real.log k.factorial -
      Real.log (n - k).factorial := by
    have := Nat.choose_mul_factorial_mul_factorial h
    have h4 : (n.factorial : ℝ) = n.choose k * k.factorial * (n - k).factorial := by
      exact_mod_cast this.symm
    have c1 : (n.choose k : ℝ) ≠ 0 := by exact_mod_cast (Nat.choose_pos h).ne'
    have c2 : (k.factorial : ℝ) ≠ 0 := by exact_mod_cast k.factorial_ne_zero
    have c3 : ((n - k).factorial : ℝ) ≠ 0 := by exact_mod_cast (n - k).factorial_ne_zero
    rw [h4, Real.log_mul (mul_ne_zero c1 c2) c3, Real.log_mul c1 c2]; ring
  simp only [logbinomial, zero_def, one_def, fin_lt, not_lt.2 h1, not_lt.2 h2, gt_iff_lt,
    not_lt.2 h3, if_false, fin_add, e1, e2, neg_fin, mp.fsum_cons, mp.fsum_nil, e3, ok_bind,
    pure_eq_ok, fin_sub, e4]

/-- C15: for real (in particular integer) arguments, `logbinomial` raises ValueError exactly when
`n < 0`, `k < 0` or `k > n`. -/
theorem logbinomial_raises (n k : ℝ) :
    logbinomial (fin n) (fin k) = .error .valueError ↔ n < 0 ∨ k < 0 ∨ n < k := by
  constructor
  · intro h
    by_contra hc
    push Not at hc
    obtain ⟨h1, h2, h3⟩ := hc
    simp only [logbinomial, zero_def, one_def, fin_lt, not_lt.2 h1, not_lt.2 h2, gt_iff_lt,
      not_lt.2 h3, if_false, fin_add, neg_fin, mp.fsum_cons, mp.fsum_nil, ok_bind, pure_eq_ok,
      mp.loggamma_pos (by linarith : 0 < n + 1), mp.loggamma_pos (by linarith : 0 < k + 1),
      mp.loggamma_pos (by linarith : 0 < n + 1 + (-k + 0))] at h
    cases h
  · intro h
    by_cases h1 : n < 0
    · simp [logbinomial, h1]
    · by_cases h2 : k < 0
      · simp [logbinomial, h1, h2]
      · simp [logbinomial, h1, h2, (h.resolve_left h1).resolve_left h2]

/-- Non-vacuity: `logbinomial(4, 2) = log 6`. -/
example : logbinomial (fin 4) (fin 2) = .ok (fin (Real.log 6)) := by
  have := logbinomial_eq (n := 4) (k := 2) (by norm_num)
  norm_num [Nat.choose] at this
  exact this

theorem logsumexp_eval {l : List ℝ} (hl : l ≠ []) {W : Option (List ℝ)}
    (hW : ∀ w, W = some w → w.length = l.length)
    (hpos : 0 < wsum l W Real.exp) :
    logsumexp (nums l) (optNums W) = .ok (fin (Real.log (wsum l W Real.exp))) := by
  obtain ⟨m, hm, hmax, e⟩ := py.max_fin hl
  have e0 : py.max (nums l) = .ok (fin m) := e
  have e1 : (nums l).map (fun t => mp.exp (t - fin m)) = nums (l.map fun t => Real.exp (t - m)) := by
    simp [nums, Function.comp_def]
  have e2 : wsum l W (fun t => Real.exp (t - m)) = wsum l W Real.exp / Real.exp m := by
    cases W with
    | none =>
      simp only [wsum, Real.exp_sub]
      rw [div_eq_mul_inv, ← List.sum_map_mul_right]; rfl
    | some w =>
      simp only [wsum, Real.exp_sub]
      clear hW hpos hm hmax e e0 e1 hl
      induction l generalizing w with
      | nil => simp
      | cons a l ih =>
        cases w with
        | nil => simp
        | cons b w => simp [ih, add_div, mul_div_assoc]
  have e3 : 0 < wsum l W (fun t => Real.exp (t - m)) := by
    rw [e2]; exact div_pos hpos (Real.exp_pos m)
  have e4 : Real.log (wsum l W (fun t => Real.exp (t - m))) + m = Real.log (wsum l W Real.exp) := by
    rw [e2, Real.log_div hpos.ne' (Real.exp_pos m).ne', Real.log_exp]; ring
  have key : ∀ v, v = wsum l W (fun t => Real.exp (t - m)) →
      (do return (← mp.log (fin v)) + fin m : M Num) = .ok (fin (Real.log (wsum l W Real.exp))) := by
    rintro _ rfl
    rw [mp.log_pos e3]; simp [e4]
  cases W with
  | none =>
    simp only [logsumexp, e0, ok_bind, optNums, Option.map_none, e1]
    rw [nums, mp.fsum_fin]
    exact key _ rfl
  | some w =>
    have e5 : List.zipWith (fun w e => w * e) (nums w) (nums (l.map fun t => Real.exp (t - m))) =
        nums (List.zipWith (fun t v => v * Real.exp (t - m)) l w) := by
      clear key e4 e3 e2 e1 e0 e hmax hm hpos hW hl
      induction l generalizing w with
      | nil => simp [nums]
      | cons a l ih =>
        cases w with
        | nil => simp [nums]
        | cons b w =>
          have := ih w
          simp only [nums] at this ⊢
          rw [List.map_cons, List.map_cons, List.map_cons, List.zipWith_cons_cons, this,
            List.zipWith_cons_cons, List.map_cons, fin_mul]
    simp only [logsumexp, e0, ok_bind, optNums, Option.map_some, e1, e5]
    rw [nums, mp.fsum_fin]
    exact key _ rfl

/-- C16: `logsumexp(logs) = log(sum(exp(l) for l in logs))` for every nonempty list of reals. -/
theorem logsumexp_eq {l : List ℝ} (hl : l ≠ []) :
    logsumexp (nums l) = .ok (fin (Real.log (l.map Real.exp).sum)) := by
  have hpos : 0 < wsum l none Real.exp := by
    refine List.sum_pos _ ?_ (by simpa using hl)
    intro v hv
    obtain ⟨t, _, rfl⟩ := List.mem_map.1 hv
    exact Real.exp_pos t
  exact logsumexp_eval hl (by intro w h; cases h) hpos

/-- C16: `logsumexp(logs, weights) = log(sum(w*exp(l)))` for as many weights as logs, when the
weighted sum is positive. -/
theorem logsumexp_weights_eq {l w : List ℝ} (hl : l ≠ []) (hw : w.length = l.length)
    (hpos : 0 < (List.zipWith (fun t v => v * Real.exp t) l w).sum) :
    logsumexp (nums l) (some (nums w)) =
      .ok (fin (Real.log (List.zipWith (fun t v => v * Real.exp t) l w).sum)) :=
  logsumexp_eval (W := some w) hl (by intro w' h; cases h; exact hw) hpos

/-- C16: shifting all inputs by `c` shifts the result by `c`. -/
theorem logsumexp_shift {l : List ℝ} (hl : l ≠ []) (c : ℝ) : ∃ v,
    logsumexp (nums l) = .ok (fin v) ∧ logsumexp (nums (l.map (· + c))) = .ok (fin (v + c)) := by
  refine ⟨_, logsumexp_eq hl, ?_⟩
  rw [logsumexp_eq (by simpa using hl)]
  have hpos : 0 < (l.map Real.exp).sum := by
    refine List.sum_pos _ ?_ (by simpa using hl)
    intro v hv
    obtain ⟨t, _, rfl⟩ := List.mem_map.1 hv
    exact Real.exp_pos t
  have : ((l.map (· + c)).map Real.exp).sum = (l.map Real.exp).sum * Real.exp c := by
    rw [← List.sum_map_mul_right]; simp [Function.comp_def, Real.exp_add]
  rw [this, Real.log_mul hpos.ne' (Real.exp_pos c).ne', Real.log_exp]

/-- C16: empty input raises ValueError; a negative weighted sum has no real logarithm; and when
every input is `-inf` (log of zero) the result is nan, not `-inf`. -/
theorem logsumexp_edge :
    logsumexp [] = .error .valueError ∧
    logsumexp (nums [0]) (some (nums [-1])) = .error .complexResult ∧
    logsumexp [ninf] = .ok nan := by
  refine ⟨rfl, ?_, ?_⟩
  · simp [logsumexp, py.max, nums, mp.log, not_lt.2 (zero_le_one' ℝ)]
  · simp [logsumexp, py.max]

/-- C16: a result that is not a weighted log-sum-exp: with more logs than weights, the surplus logs
are ignored in the sum (`zip`), and still no error is raised. -/
theorem logsumexp_truncates : logsumexp (nums [0, 0]) (some (nums [1])) = .ok (fin 0) := by
  simp [logsumexp, py.max, nums, mp.log]

/-- Non-vacuity: two equal logs, and weights 1 and 2. -/
example : logsumexp (nums [0, 0]) (some (nums [1, 2])) = .ok (fin (Real.log 3)) := by
  rw [logsumexp_weights_eq (by simp) (by simp) (by norm_num)]
  norm_num

end Mpsci.fun_
