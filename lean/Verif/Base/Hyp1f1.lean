import Verif.Base.Mp

/-! Kummer's function. -/

namespace Mpsci

open Classical Num

/-- the rising factorial `a (a + 1) ... (a + k - 1)` -/
noncomputable def rising (a : ℝ) (k : ℕ) : ℝ := ∏ i ∈ Finset.range k, (a + i)

/-- Kummer's series -/
noncomputable def hyp1f1R (a b z : ℝ) : ℝ := ∑' k : ℕ, rising a k / rising b k * z ^ k / k.factorial

/-- `mp.hyp1f1(a, b, z)` for `b > 0` -/
noncomputable def mp.hyp1f1 : Num → Num → Num → M Num
  | fin a, fin b, fin z => if 0 < b then .ok (fin (hyp1f1R a b z)) else .error .notModelled
  | _, _, _ => .error .notModelled

/-- `mp.laguerre(n, 0, z)`; mpmath evaluates the Laguerre function of real order as Kummer's function. -/
noncomputable def mp.laguerre0 (n z : Num) : M Num := mp.hyp1f1 (-n) 1 z

theorem mp.hyp1f1_pos (a : ℝ) {b : ℝ} (hb : 0 < b) (z : ℝ) : mp.hyp1f1 (fin a) (fin b) (fin z) = .ok (fin (hyp1f1R a b z)) := if_pos hb

end Mpsci
