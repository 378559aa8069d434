import Verif.Base.Num
import Mathlib.Topology.Order.IntermediateValue
import Mathlib.Topology.Algebra.Order.Field
import Mathlib.Topology.Instances.Real.Lemmas

/-!
# What is assumed about `mp.findroot`

Root finding is not modelled; it is a parameter of the models that use it, and these contracts are
hypotheses of the theorems about them.
-/

namespace Mpsci.Spec

open Classical Num

/-- `mp.findroot(func, (lo, hi), solver=...)` with a bracketing solver ('illinois', 'anderson'): if `func` is
continuous on the bracket and its values at the two ends have opposite signs (or are zero), a zero in the
bracket is returned. -/
def RootFinder (findroot : (Num → M Num) → Num → Num → M Num) : Prop :=
  ∀ (f : Num → M Num) (g : ℝ → ℝ) (lo hi : ℝ), lo < hi →
    (∀ x ∈ Set.Icc lo hi, f (fin x) = .ok (fin (g x))) → ContinuousOn g (Set.Icc lo hi) →
    (g lo ≤ 0 ∧ 0 ≤ g hi ∨ 0 ≤ g lo ∧ g hi ≤ 0) →
    ∃ r ∈ Set.Icc lo hi, findroot f (fin lo) (fin hi) = .ok (fin r) ∧ g r = 0

/-- There is such a function. -/
theorem exists_rootFinder : ∃ findroot, RootFinder findroot := by
  refine ⟨fun f lo hi => if h : ∃ r : ℝ, (∃ a b, lo = fin a ∧ hi = fin b ∧ r ∈ Set.Icc a b) ∧
    f (fin r) = .ok 0 then .ok (fin h.choose) else .error .valueError, ?_⟩
  intro f g lo hi hlt hf hg h12
  obtain ⟨r, hr, hr0⟩ : ∃ r ∈ Set.Icc lo hi, g r = 0 := by
    rcases h12 with ⟨h1, h2⟩ | ⟨h1, h2⟩
    · exact intermediate_value_Icc hlt.le hg ⟨h1, h2⟩
    · exact intermediate_value_Icc' hlt.le hg ⟨h2, h1⟩
  have h : ∃ r : ℝ, (∃ a b, fin lo = fin a ∧ fin hi = fin b ∧ r ∈ Set.Icc a b) ∧ f (fin r) = .ok 0 :=
    ⟨r, ⟨lo, hi, rfl, rfl, hr⟩, by rw [hf r hr, hr0]; rfl⟩
  obtain ⟨⟨a, b, ha, hb, hm⟩, h0⟩ := h.choose_spec
  have ha := Num.fin.inj ha
  have hb := Num.fin.inj hb
  rw [← ha, ← hb] at hm
  refine ⟨h.choose, hm, by simp only [dif_pos h], ?_⟩
  have := hf _ hm
  rw [h0] at this
  exact (Num.fin.inj (Except.ok.inj this)).symm

theorem RootFinder.up {findroot : (Num → M Num) → Num → Num → M Num} (hr : RootFinder findroot)
    (f : Num → M Num) (g : ℝ → ℝ) (lo hi : ℝ) (hlt : lo < hi)
    (hf : ∀ x ∈ Set.Icc lo hi, f (fin x) = .ok (fin (g x))) (hg : ContinuousOn g (Set.Icc lo hi))
    (h1 : g lo ≤ 0) (h2 : 0 ≤ g hi) :
    ∃ r ∈ Set.Icc lo hi, findroot f (fin lo) (fin hi) = .ok (fin r) ∧ g r = 0 :=
  hr f g lo hi hlt hf hg (Or.inl ⟨h1, h2⟩)

/-- `mp.findroot(func, x0, ...)` with a Newton-like solver: from any starting point a zero is found, if there is
one. (An idealisation: it ignores failures to converge, which mpmath reports as ValueError.) -/
def NewtonFinder (findroot : (Num → M Num) → Num → M Num) : Prop :=
  ∀ (f : Num → M Num) (g : ℝ → ℝ) (x0 : ℝ), (∀ x, f (fin x) = .ok (fin (g x))) → (∃ r, g r = 0) →
    ∃ r, findroot f (fin x0) = .ok (fin r) ∧ g r = 0

/-- There is such a function. -/
theorem exists_newtonFinder : ∃ findroot, NewtonFinder findroot := by
  refine ⟨fun f _ => if h : ∃ r : ℝ, f (fin r) = .ok 0 then .ok (fin h.choose) else .error .valueError, ?_⟩
  rintro f g x0 hf ⟨r, hr⟩
  have h : ∃ r : ℝ, f (fin r) = .ok 0 := ⟨r, by rw [hf, hr]; rfl⟩
  refine ⟨h.choose, by simp only [dif_pos h], ?_⟩
  have := hf h.choose
  rw [h.choose_spec] at this
  exact (Num.fin.inj (Except.ok.inj this)).symm

/-- `mp.findroot(func, x0)`: what is returned, if anything is, is a zero of `func`.  (In floating point the zero is
approximate: mpmath checks `func(x)**2 <= tol`.) -/
def SoundFinder (findroot : (Num → M Num) → Num → M Num) : Prop :=
  ∀ f x0 r, findroot f x0 = .ok r → f r = .ok 0

/-- There is such a function, and it may find a zero whenever there is one. -/
theorem exists_soundFinder : ∃ findroot, SoundFinder findroot ∧ ∀ f x0 r, f r = .ok 0 → ∃ r', findroot f x0 = .ok r' := by
  refine ⟨fun f _ => if h : ∃ r, f r = .ok 0 then .ok h.choose else .error .valueError, ?_, ?_⟩
  · intro f x0 r h
    by_cases h1 : ∃ r, f r = .ok 0
    · simp only [dif_pos h1] at h
      rw [← Except.ok.inj h]; exact h1.choose_spec
    · simp only [dif_neg h1] at h
      exact absurd h (by simp)
  · intro f x0 r h
    have h1 : ∃ r, f r = .ok 0 := ⟨r, h⟩
    exact ⟨_, by simp only [dif_pos h1]; rfl⟩

/-- The same for two equations in two unknowns. -/
def SoundFinder2 (findroot : (Num → Num → M (Num × Num)) → Num × Num → M (Num × Num)) : Prop :=
  ∀ f x0 r, findroot f x0 = .ok r → f r.1 r.2 = .ok (0, 0)

theorem exists_soundFinder2 : ∃ findroot, SoundFinder2 findroot ∧
    ∀ f x0, ∀ r : Num × Num, f r.1 r.2 = .ok (0, 0) → ∃ r', findroot f x0 = .ok r' := by
  refine ⟨fun f _ => if h : ∃ r : Num × Num, f r.1 r.2 = .ok (0, 0) then .ok h.choose else .error .valueError, ?_, ?_⟩
  · intro f x0 r h
    by_cases h1 : ∃ r : Num × Num, f r.1 r.2 = .ok (0, 0)
    · simp only [dif_pos h1] at h
      rw [← Except.ok.inj h]; exact h1.choose_spec
    · simp only [dif_neg h1] at h
      exact absurd h (by simp)
  · intro f x0 r h
    have h1 : ∃ r : Num × Num, f r.1 r.2 = .ok (0, 0) := ⟨r, h⟩
    exact ⟨_, by simp only [dif_pos h1]; rfl⟩

/-- The same for one equation, with two starting points. -/
def SoundFinderB (findroot : (Num → M Num) → Num → Num → M Num) : Prop :=
  ∀ f x0 x1 r, findroot f x0 x1 = .ok r → f r = .ok 0

theorem exists_soundFinderB : ∃ findroot, SoundFinderB findroot ∧ ∀ f x0 x1 r, f r = .ok 0 → ∃ r', findroot f x0 x1 = .ok r' := by
  obtain ⟨findroot, h1, h2⟩ := exists_soundFinder
  exact ⟨fun f x0 _ => findroot f x0, fun f x0 _ r h => h1 f x0 r h, fun f x0 _ r h => h2 f x0 r h⟩

/-- The same for three equations in three unknowns. -/
def SoundFinder3 (findroot : (Num → Num → Num → M (Num × Num × Num)) → Num × Num × Num → M (Num × Num × Num)) : Prop :=
  ∀ f x0 r, findroot f x0 = .ok r → f r.1 r.2.1 r.2.2 = .ok (0, 0, 0)

theorem exists_soundFinder3 : ∃ findroot, SoundFinder3 findroot ∧
    ∀ f x0, ∀ r : Num × Num × Num, f r.1 r.2.1 r.2.2 = .ok (0, 0, 0) → ∃ r', findroot f x0 = .ok r' := by
  refine ⟨fun f _ => if h : ∃ r : Num × Num × Num, f r.1 r.2.1 r.2.2 = .ok (0, 0, 0) then .ok h.choose else .error .valueError, ?_, ?_⟩
  · intro f x0 r h
    by_cases h1 : ∃ r : Num × Num × Num, f r.1 r.2.1 r.2.2 = .ok (0, 0, 0)
    · simp only [dif_pos h1] at h
      rw [← Except.ok.inj h]; exact h1.choose_spec
    · simp only [dif_neg h1] at h
      exact absurd h (by simp)
  · intro f x0 r h
    have h1 : ∃ r : Num × Num × Num, f r.1 r.2.1 r.2.2 = .ok (0, 0, 0) := ⟨r, h⟩
    exact ⟨_, by simp only [dif_pos h1]; rfl⟩

end Mpsci.Spec
