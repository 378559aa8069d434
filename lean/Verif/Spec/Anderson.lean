import Verif.Spec.Search

/-!
# mpmath's bracketing solver "anderson" when the function is infinite at an end of the bracket

The iteration starts with `s = (f(b) - f(a))/(b - a)`, `z = a - f(a)/s`.

* If `f(a) = -inf`, then `z = a - (-inf)/inf = nan`, all later points are nan, and nan is returned.
* If `f(b) = inf`, then `z = a - f(a)/inf = a`.  Unless `f(a)` or the bracket is already below the tolerance, the next
  point is `b - inf/(-inf) = nan`, and nan is returned as before.
-/

namespace Mpsci.Spec

open Classical Num

/-- `mp.findroot(func, [lo, hi], solver='anderson')`: it finds a zero of a continuous function that changes its sign (as
`BisectFinder`; an idealisation), and does what the iteration does when the function is infinite at an end. -/
def AndersonFinder (tol : ℝ) (findroot : (Num → M Num) → Num → Num → M Num) : Prop :=
  BisectFinder findroot ∧
  (∀ (f : Num → M Num) (lo hi b : ℝ), lo < hi → f (fin lo) = .ok ninf → f (fin hi) = .ok (fin b) → f nan = .ok nan →
    findroot f (fin lo) (fin hi) = .ok nan) ∧
  (∀ (f : Num → M Num) (lo hi a : ℝ), tol ≤ hi - lo → lo < hi → f (fin lo) = .ok (fin a) → a < 0 → tol ≤ -a → f (fin hi) = .ok pinf →
    f nan = .ok nan → findroot f (fin lo) (fin hi) = .ok nan)

/-- There is such a function. -/
theorem exists_andersonFinder (tol : ℝ) : ∃ findroot, AndersonFinder tol findroot := by
  obtain ⟨fr, h⟩ := exists_bisectFinder
  refine ⟨fun f lo hi => if f lo = .ok ninf ∨ f hi = .ok pinf then .ok nan else fr f lo hi, ?_, ?_, ?_⟩
  · intro f g lo hi hlt hf hg h12
    obtain ⟨r, h1, h2, h3⟩ := h f g lo hi hlt hf hg h12
    refine ⟨r, h1, ?_, h3⟩
    show (if _ then _ else _) = _
    rw [if_neg, h2]
    rw [hf lo ⟨le_rfl, hlt⟩, hf hi ⟨hlt, le_rfl⟩]
    simp
  · intro f lo hi b _ h1 _ _
    simp [h1]
  · intro f lo hi a _ _ _ _ _ h1 _
    simp [h1]

end Mpsci.Spec
