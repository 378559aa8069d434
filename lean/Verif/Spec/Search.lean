import Verif.Spec.RootFinder

/-!
# Quantile functions that search

`inv fuel p` is the call `inv(p)` whose `while` loops are cut off (with `Err.diverges`) after `fuel` rounds.
-/

namespace Mpsci.Spec

open Classical Num

/-- The call returns `v`, given enough fuel for its loops, whatever the amount. -/
def Reaches (call : ℕ → M Num) (v : Num) : Prop := ∃ N, ∀ fuel ≥ N, call fuel = .ok v

/-- C05 for a quantile function that searches: on the open set `S` (the interior of the support) `inv` ends and inverts
`f`, both ways. -/
def InvertsSearch (S : Set ℝ) (f : Num → M Num) (inv : ℕ → Num → M Num) : Prop :=
  (∀ p : ℝ, 0 < p → p < 1 → ∃ x ∈ S, Reaches (inv · (fin p)) (fin x) ∧ f (fin x) = .ok (fin p)) ∧
  (∀ x ∈ S, ∃ p : ℝ, 0 < p ∧ p < 1 ∧ f (fin x) = .ok (fin p) ∧ Reaches (inv · (fin p)) (fin x))

/-- `mp.findroot(func, (x0, x1), solver='secant')` (also the default solver): from any two starting points a zero is
found, if there is one. (An idealisation: it ignores failures to converge, which mpmath reports as ValueError.) -/
def SecantFinder (findroot : (Num → M Num) → Num → Num → M Num) : Prop :=
  ∀ (f : Num → M Num) (g : ℝ → ℝ) (x0 x1 : ℝ), (∀ x, f (fin x) = .ok (fin (g x))) → (∃ r, g r = 0) →
    ∃ r, findroot f (fin x0) (fin x1) = .ok (fin r) ∧ g r = 0

/-- There is such a function. -/
theorem exists_secantFinder : ∃ findroot, SecantFinder findroot := by
  obtain ⟨findroot, h⟩ := exists_newtonFinder
  exact ⟨fun f x0 _ => findroot f x0, fun f g x0 _ hf hr => h f g x0 hf hr⟩

/-- `mp.findroot(func, (lo, hi), solver='bisect')`: as `RootFinder`, and the two ends of the bracket may be equal. -/
def BisectFinder (findroot : (Num → M Num) → Num → Num → M Num) : Prop :=
  ∀ (f : Num → M Num) (g : ℝ → ℝ) (lo hi : ℝ), lo ≤ hi →
    (∀ x ∈ Set.Icc lo hi, f (fin x) = .ok (fin (g x))) → ContinuousOn g (Set.Icc lo hi) →
    (g lo ≤ 0 ∧ 0 ≤ g hi ∨ 0 ≤ g lo ∧ g hi ≤ 0) →
    ∃ r ∈ Set.Icc lo hi, findroot f (fin lo) (fin hi) = .ok (fin r) ∧ g r = 0

/-- There is such a function. -/
theorem exists_bisectFinder : ∃ findroot, BisectFinder findroot := by
  refine ⟨fun f lo hi => if h : ∃ r : ℝ, (∃ a b, lo = fin a ∧ hi = fin b ∧ r ∈ Set.Icc a b) ∧
    f (fin r) = .ok 0 then .ok (fin h.choose) else .error .valueError, ?_⟩
  intro f g lo hi hlt hf hg h12
  obtain ⟨r, hr, hr0⟩ : ∃ r ∈ Set.Icc lo hi, g r = 0 := by
    rcases h12 with ⟨h1, h2⟩ | ⟨h1, h2⟩
    · exact intermediate_value_Icc hlt hg ⟨h1, h2⟩
    · exact intermediate_value_Icc' hlt hg ⟨h2, h1⟩
  have h : ∃ r : ℝ, (∃ a b, fin lo = fin a ∧ fin hi = fin b ∧ r ∈ Set.Icc a b) ∧ f (fin r) = .ok 0 :=
    ⟨r, ⟨lo, hi, rfl, rfl, hr⟩, by rw [hf r hr, hr0]; rfl⟩
  obtain ⟨⟨a, b, ha, hb, hm⟩, h0⟩ := h.choose_spec
  have ha := Num.fin.inj ha
  have hb := Num.fin.inj hb
  rw [← ha, ← hb] at hm
  refine ⟨h.choose, hm, by simp only [dif_pos h], ?_⟩
  have := hf _ hm
  rw [h0] at this
  exact (Num.fin.inj (Except.ok.inj this)).symm

end Mpsci.Spec
