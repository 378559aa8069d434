import Verif.Base.Num

/-!
# Python `while` loops

A `while` loop whose length is not known in advance is modelled with fuel: `loop fuel` runs at
most `fuel` tests of the condition and answers `Err.diverges` if that was not enough.  Theorems
about loops show that for every large enough fuel the result is the same proper value, which is
what "the loop terminates with this value" means.
-/

namespace Mpsci

open Classical

/-- `while cond(s): s = step(s)`; the value is the final state. -/
noncomputable def loop {σ : Type} (cond : σ → M Prop) (step : σ → M σ) : ℕ → σ → M σ
  | 0, _ => .error .diverges
  | n + 1, s => do
    if (← cond s) then
      let s' ← step s
      loop cond step n s'
    else
      return s

/-- A loop with an invariant `I` and a natural-number measure that decreases ends in a state
where the condition is false. -/
theorem loop_ends {σ : Type} {cond : σ → M Prop} {step : σ → M σ} (I : σ → Prop) (m : σ → ℕ)
    (C : σ → Prop) (f : σ → σ) (hc : ∀ s, I s → cond s = .ok (C s))
    (hs : ∀ s, I s → C s → step s = .ok (f s)) (hI : ∀ s, I s → C s → I (f s))
    (hm : ∀ s, I s → C s → m (f s) < m s) {s : σ} (h : I s) :
    ∃ N t, I t ∧ ¬ C t ∧ ∀ n ≥ N, loop cond step n s = .ok t := by
  induction hk : m s using Nat.strong_induction_on generalizing s with
  | _ k ih =>
    by_cases hC : C s
    · obtain ⟨N, t, h1, h2, h3⟩ := ih (m (f s)) (by have := hm s h hC; omega) (hI s h hC) rfl
      refine ⟨N + 1, t, h1, h2, fun n hn => ?_⟩
      obtain ⟨n, rfl⟩ : ∃ n', n = n' + 1 := ⟨n - 1, by omega⟩
      simp only [loop, hc s h, hs s h hC, ok_bind, hC, if_true]
      exact h3 n (by omega)
    · refine ⟨1, s, h, hC, fun n hn => ?_⟩
      obtain ⟨n, rfl⟩ : ∃ n', n = n' + 1 := ⟨n - 1, by omega⟩
      simp [loop, hc s h, hC]

/-- The same with an invariant that counts the iterations, and a bound on their number. -/
theorem loop_ends_idx {σ : Type} {cond : σ → M Prop} {step : σ → M σ} (I : ℕ → σ → Prop) (C : σ → Prop) (K : ℕ)
    (hc : ∀ k s, I k s → cond s = .ok (C s))
    (hs : ∀ k s, I k s → C s → ∃ s', step s = .ok s' ∧ I (k + 1) s') (hK : ∀ k s, K ≤ k → I k s → ¬ C s)
    {s : σ} (h : I 0 s) : ∃ k N t, I k t ∧ ¬ C t ∧ ∀ n ≥ N, loop cond step n s = .ok t := by
  suffices H : ∀ d k s, k + d = K → I k s → ∃ k N t, I k t ∧ ¬ C t ∧ ∀ n ≥ N, loop cond step n s = .ok t from
    H K 0 s (by simp) h
  intro d
  induction d with
  | zero =>
    intro k s hk hI
    have hC := hK k s (by omega) hI
    refine ⟨k, 1, s, hI, hC, fun n hn => ?_⟩
    obtain ⟨n, rfl⟩ : ∃ n', n = n' + 1 := ⟨n - 1, by omega⟩
    simp [loop, hc k s hI, hC]
  | succ d ih =>
    intro k s hk hI
    by_cases hC : C s
    · obtain ⟨s', e, hI'⟩ := hs k s hI hC
      obtain ⟨k', N, t, h1, h2, h3⟩ := ih (k + 1) s' (by omega) hI'
      refine ⟨k', N + 1, t, h1, h2, fun n hn => ?_⟩
      obtain ⟨n, rfl⟩ : ∃ n', n = n' + 1 := ⟨n - 1, by omega⟩
      simp only [loop, hc k s hI, e, ok_bind, hC, if_true]
      exact h3 n (by omega)
    · refine ⟨k, 1, s, hI, hC, fun n hn => ?_⟩
      obtain ⟨n, rfl⟩ : ∃ n', n = n' + 1 := ⟨n - 1, by omega⟩
      simp [loop, hc k s hI, hC]

end Mpsci
