import Verif.Base.Special
import Verif.Base.Py
import Mathlib.Data.Nat.Choose.Sum
import Mathlib.RingTheory.Binomial

/-!
# mpmath functions on integer arguments, rounding to integers, incomplete gamma function
-/

namespace Mpsci

open Classical Num MeasureTheory

/-- A Python integer as a number. -/
noncomputable def ofInt (k : ℤ) : Num := fin (k : ℝ)
@[simp] theorem ofInt_def (k : ℤ) : ofInt k = fin (k : ℝ) := rfl

namespace mp

/-- `mp.binomial(n, k)` for integers, following `mpmath`'s `gammaprod([n+1], [k+1, n-k+1])`, in which
a pole of the denominator that is not matched by one in the numerator gives 0 and matched poles are
replaced by their limit: for `n >= 0` the ordinary coefficient (0 unless `0 <= k <= n`), for `n < 0 <= k`
the coefficient of `x**k` in `(1+x)**n`; `n < 0`, `k < 0` is not needed by the modelled code. -/
noncomputable def binomial (n k : ℤ) : M Num :=
  if 0 ≤ n then .ok (if 0 ≤ k then fin (n.toNat.choose k.toNat) else 0)
  else if 0 ≤ k then .ok (fin (Ring.choose n k.toNat : ℤ)) else .error .notModelled

theorem binomial_nat (n k : ℕ) : binomial n k = .ok (fin (n.choose k)) := by
  simp [binomial]
theorem binomial_neg (n : ℕ) {k : ℤ} (h : k < 0) : binomial n k = .ok (fin 0) := by
  simp [binomial, not_le.2 h]

/-- `mp.factorial(k)` for integers: ValueError at the poles (negative integers). -/
noncomputable def factorial (k : ℤ) : M Num :=
  if 0 ≤ k then .ok (fin (k.toNat.factorial)) else .error .valueError
theorem factorial_nat (k : ℕ) : factorial k = .ok (fin k.factorial) := by simp [factorial]

theorem power_nat {x : ℝ} (hx : 0 ≤ x) (n : ℕ) : power (fin x) (fin (n : ℝ)) = .ok (fin (x ^ n)) := by
  rcases hx.eq_or_lt with rfl | h
  · rcases Nat.eq_zero_or_pos n with rfl | hn
    · simp
    · rw [power_zero_pos (by exact_mod_cast hn), zero_pow hn.ne']
  · rw [power_pos h, Real.rpow_natCast]

/-- `mp.beta(a, b)` for integers, following `gammaprod([a, b], [a+b])`: `+inf` when the numerator has
more poles than the denominator.  Arguments with `a + b <= 0` are not needed. -/
noncomputable def betaZ (a b : ℤ) : M Num :=
  if 0 < a ∧ 0 < b then .ok (fin (betaFn a b))
  else if 0 < a + b then .ok pinf else .error .notModelled

/-- The rising factorial `x (x+1) ... (x+n-1)`. -/
def poch (x : ℝ) : ℕ → ℝ
  | 0 => 1
  | n + 1 => poch x n * (x + n)

/-- `mp.hyp3f2(a1, a2, a3, b1, b2, 1)` when the series terminates (an upper parameter is a nonpositive
integer) or converges (`b1 + b2 > a1 + a2 + a3`), and no lower parameter is a nonpositive integer: the
sum of the series. -/
noncomputable def hyp3f2One (a1 a2 a3 b1 b2 : ℝ) : M Num :=
  if ((∃ m : ℕ, a1 = -m ∨ a2 = -m ∨ a3 = -m) ∨ a1 + a2 + a3 < b1 + b2) ∧
      (∀ m : ℕ, b1 ≠ -m ∧ b2 ≠ -m) then
    .ok (fin (∑' i : ℕ, poch a1 i * poch a2 i * poch a3 i / (poch b1 i * poch b2 i * i.factorial)))
  else .error .notModelled

/-- `mp.ceil` -/
noncomputable def ceil : Num → Num
  | fin x => fin ⌈x⌉
  | y => y
@[simp] theorem ceil_fin (x : ℝ) : ceil (fin x) = fin ⌈x⌉ := rfl
/-- `mp.floor` -/
noncomputable def floor : Num → Num
  | fin x => fin ⌊x⌋
  | y => y
@[simp] theorem floor_fin (x : ℝ) : floor (fin x) = fin ⌊x⌋ := rfl

/-- `mp.gammainc(a, x)` and `mp.gammainc(a, x, regularized=True)` with a positive `a` and nonnegative
`x`: the upper incomplete gamma function, divided by `Gamma(a)` if regularised. -/
noncomputable def gammaincUpperReg : Num → Num → M Num
  | fin a, fin x =>
    if 0 < a ∧ 0 ≤ x then
      .ok (fin ((∫ t in Set.Ioi x, t ^ (a - 1) * Real.exp (-t)) / Real.Gamma a))
    else .error .notModelled
  | _, _ => .error .notModelled

/-- `mp.gammainc(a, 0, x, regularized=True)` with a positive `a` and nonnegative `x`: the regularised
lower incomplete gamma function. -/
noncomputable def gammaincLowerReg : Num → Num → M Num
  | fin a, fin x =>
    if 0 < a ∧ 0 ≤ x then
      .ok (fin ((∫ t in Set.Ioc 0 x, t ^ (a - 1) * Real.exp (-t)) / Real.Gamma a))
    else .error .notModelled
  | _, _ => .error .notModelled

end mp

namespace py

/-- `int(x)` for an mpmath number: truncation towards zero; ValueError for infinities and nan. -/
noncomputable def int : Num → M ℤ
  | fin x => .ok (if 0 ≤ x then ⌊x⌋ else ⌈x⌉)
  | _ => .error .valueError
@[simp] theorem int_cast (k : ℤ) : int (fin k) = .ok k := by
  simp [int]

end py

end Mpsci
