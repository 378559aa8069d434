import Mathlib.Analysis.Convex.Deriv
import Mathlib.Analysis.Calculus.MeanValue
import Mathlib.Topology.Order.MonotoneConvergence
import Mathlib.Tactic.Linarith
import Mathlib.Tactic.FieldSimp
import Mathlib.Tactic.Positivity

/-! Newton's method for a decreasing convex function on the positive half line. -/

namespace Mpsci

open Set Filter Topology

section
variable {f f' : ℝ → ℝ} {r : ℝ}

theorem convex_tangent (hd : ∀ x, 0 < x → HasDerivAt f (f' x) x) (hm : ∀ x y, 0 < x → x ≤ y → f' x ≤ f' y)
    {x y : ℝ} (hx : 0 < x) (hy : 0 < y) : f x + f' x * (y - x) ≤ f y := by
  rcases lt_trichotomy x y with h | h | h
  · obtain ⟨c, hc, e⟩ := exists_hasDerivAt_eq_slope f f' h
      (fun t ht => (hd t (hx.trans_le ht.1)).continuousAt.continuousWithinAt) fun t ht => hd t (hx.trans ht.1)
    have h1 : 0 < y - x := by linarith
    have := hm x c hx hc.1.le
    rw [eq_div_iff h1.ne'] at e
    have := mul_le_mul_of_nonneg_right this h1.le
    linarith
  · subst h; simp
  · obtain ⟨c, hc, e⟩ := exists_hasDerivAt_eq_slope f f' h
      (fun t ht => (hd t (hy.trans_le ht.1)).continuousAt.continuousWithinAt) fun t ht => hd t (hy.trans ht.1)
    have h1 : 0 < x - y := by linarith
    have := hm c x (hy.trans hc.1) hc.2.le
    rw [eq_div_iff h1.ne'] at e
    have := mul_le_mul_of_nonneg_right this h1.le
    linarith

theorem newton_le (hd : ∀ x, 0 < x → HasDerivAt f (f' x) x) (hm : ∀ x y, 0 < x → x ≤ y → f' x ≤ f' y)
    (hn : ∀ x, 0 < x → f' x < 0) (hr : 0 < r) (h0 : f r = 0) {x : ℝ} (hx : 0 < x) : x - f x / f' x ≤ r := by
  have h1 := convex_tangent hd hm hx hr
  have h2 := hn x hx
  have h3 : x - r ≤ f x / f' x := by
    rw [le_div_iff_of_neg h2]
    rw [h0] at h1; nlinarith
  linarith

theorem newton_ge (hd : ∀ x, 0 < x → HasDerivAt f (f' x) x) (hm : ∀ x y, 0 < x → x ≤ y → f' x ≤ f' y)
    (hn : ∀ x, 0 < x → f' x < 0) (hr : 0 < r) (h0 : f r = 0) {x : ℝ} (hx : 0 < x) (h : x ≤ r) : x ≤ x - f x / f' x := by
  have h1 := convex_tangent hd hm hr hx
  have h2 := hn r hr
  have h3 : 0 ≤ f x := by rw [h0] at h1; nlinarith
  have := div_nonpos_of_nonneg_of_nonpos h3 (hn x hx).le
  linarith

/-- If the first step stays positive, the iterates stay positive and converge to the root. -/
theorem newton_tendsto (hd : ∀ x, 0 < x → HasDerivAt f (f' x) x) (hm : ∀ x y, 0 < x → x ≤ y → f' x ≤ f' y)
    (hn : ∀ x, 0 < x → f' x < 0) (hr : 0 < r) (h0 : f r = 0) {x : ℕ → ℝ} (hx : 0 < x 0) (hx1 : 0 < x 1)
    (hs : ∀ n, x (n + 1) = x n - f (x n) / f' (x n)) : (∀ n, 0 < x n) ∧ Tendsto x atTop (𝓝 r) := by
  have key : ∀ n, 0 < x (n + 1) ∧ x (n + 1) ≤ r ∧ x 1 ≤ x (n + 1) := by
    intro n
    induction n with
    | zero => exact ⟨hx1, by rw [hs 0]; exact newton_le hd hm hn hr h0 hx, le_rfl⟩
    | succ n ih =>
      have h1 := newton_ge hd hm hn hr h0 ih.1 ih.2.1
      rw [← hs (n + 1)] at h1
      exact ⟨ih.1.trans_le h1, by rw [hs (n + 1)]; exact newton_le hd hm hn hr h0 ih.1, ih.2.2.trans h1⟩
  have hpos : ∀ n, 0 < x n := fun n => by cases n with | zero => exact hx | succ n => exact (key n).1
  refine ⟨hpos, ?_⟩
  have hmono : Monotone fun n => x (n + 1) := monotone_nat_of_le_succ fun n => by
    have h1 := newton_ge hd hm hn hr h0 (key n).1 (key n).2.1
    rwa [← hs (n + 1)] at h1
  obtain ⟨l, hl⟩ : ∃ l, Tendsto (fun n => x (n + 1)) atTop (𝓝 l) := by
    rcases tendsto_of_monotone hmono with h | h
    · exfalso
      obtain ⟨n, h1⟩ := (h.eventually_gt_atTop r).exists
      exact absurd (key n).2.1 (not_le.2 h1)
    · exact h
  have hl0 : 0 < l := hx1.trans_le (ge_of_tendsto' hl fun n => (key n).2.2)
  have hl1 : l ≤ r := le_of_tendsto' hl fun n => (key n).2.1
  have hfc : Tendsto (fun n => f (x (n + 1))) atTop (𝓝 (f l)) := (hd l hl0).continuousAt.tendsto.comp hl
  have hdiff : Tendsto (fun n => (x (n + 2) - x (n + 1)) * (-f' (x 1))) atTop (𝓝 0) := by
    have h2 : Tendsto (fun n => x (n + 2)) atTop (𝓝 l) := (tendsto_add_atTop_iff_nat 1).2 hl
    have := (h2.sub hl).mul_const (-f' (x 1))
    simpa using this
  have hfl : f l ≤ 0 := by
    refine le_of_tendsto_of_tendsto' hfc hdiff fun n => ?_
    have h1 := hn _ (key n).1
    have e : x (n + 2) - x (n + 1) = f (x (n + 1)) / -f' (x (n + 1)) := by rw [hs (n + 1), div_neg]; ring
    have h3 : 0 ≤ x (n + 2) - x (n + 1) := sub_nonneg.2 (hmono (Nat.le_succ n))
    have h4 : f (x (n + 1)) = (x (n + 2) - x (n + 1)) * -f' (x (n + 1)) := by rw [e, div_mul_cancel₀ _ (by linarith)]
    rw [h4]
    exact mul_le_mul_of_nonneg_left (neg_le_neg (hm _ _ hx1 (key n).2.2)) h3
  have hlr : l = r := by
    refine le_antisymm hl1 (not_lt.1 fun h => ?_)
    have h1 := convex_tangent hd hm hr hl0
    have h2 := hn r hr
    rw [h0] at h1
    nlinarith
  rw [← hlr]
  exact (tendsto_add_atTop_iff_nat 1).1 hl

end

end Mpsci
