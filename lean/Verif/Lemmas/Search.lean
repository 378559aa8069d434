import Verif.Spec.Search
import Verif.Model.Common.Search
import Verif.Props.Common.Bracket

/-! Quantile functions by bracket search and root finding. -/

namespace Mpsci

open Classical Num Spec Set common

theorem invertsSearch_of {S : Set ℝ} {f : Num → M Num} {inv : ℕ → Num → M Num} {F : ℝ → ℝ}
    (hf : ∀ x ∈ S, f (fin x) = .ok (fin (F x))) (hm : ∀ x ∈ S, 0 < F x ∧ F x < 1)
    (hex : ∀ p, 0 < p → p < 1 → ∃ x ∈ S, F x = p)
    (hs : ∀ x ∈ S, Reaches (inv · (fin (F x))) (fin x)) : InvertsSearch S f inv := by
  refine ⟨fun p h0 h1 => ?_, fun x hx => ⟨F x, (hm x hx).1, (hm x hx).2, hf x hx, hs x hx⟩⟩
  obtain ⟨x, hx, rfl⟩ := hex p h0 h1
  exact ⟨x, hx, hs x hx, hf x hx⟩

namespace common

variable {func : Num → M Num} {g : ℝ → ℝ} {a p pb T x : ℝ} {sg : Num}
  {findroot : (Num → M Num) → Num → Num → M Num}

theorem bisectSteps_returns (hf : ∀ t, a ≤ t → func (fin t) = .ok (fin (g t))) (n : ℕ) : ∀ x0 x1 : ℝ, a ≤ x0 → x0 < x1 →
    ∃ lo hi, a ≤ lo ∧ (lo < hi ∨ lo = hi ∧ g lo = p) ∧
      bisectSteps func (fin p) sg n (fin x0) (fin x1) = .ok (fin lo, fin hi) := by
  induction n with
  | zero => intro x0 x1 h0 h1; exact ⟨x0, x1, h0, Or.inl h1, rfl⟩
  | succ n ih =>
    intro x0 x1 h0 h1
    have e : (fin x0 + fin x1) /. 2 = .ok (fin ((x0 + x1) / 2)) := by
      simp only [ofNat_def, fin_add, fin_div _ (two_ne_zero)]
    have hm : func (fin ((x0 + x1) / 2)) = .ok (fin (g ((x0 + x1) / 2))) := hf _ (by linarith)
    by_cases h : g ((x0 + x1) / 2) = p
    · exact ⟨_, _, by linarith, Or.inr ⟨rfl, h⟩, by simp only [bisectSteps, e, hm, ok_bind, fin_eq, h, if_true, pure_eq_ok]⟩
    · by_cases h' : mp.sign (fin (p - g ((x0 + x1) / 2))) =. sg
      · obtain ⟨lo, hi, h2, h3, h4⟩ := ih ((x0 + x1) / 2) x1 (by linarith) (by linarith)
        exact ⟨lo, hi, h2, h3, by
          simp only [bisectSteps, e, hm, ok_bind, fin_eq, h, if_false, fin_sub, h', if_true, h4]⟩
      · obtain ⟨lo, hi, h2, h3, h4⟩ := ih x0 ((x0 + x1) / 2) h0 (by linarith)
        exact ⟨lo, hi, h2, h3, by
          simp only [bisectSteps, e, hm, ok_bind, fin_eq, h, if_false, fin_sub, h', h4]⟩

/-- On `[a, ∞)` the search ends whenever the values of `func` pass `p`. -/
theorem findBracket_returns (hf : ∀ t, a ≤ t → func (fin t) = .ok (fin (g t))) (hb : func pinf = .ok (fin pb))
    (hne : p ≠ pb) (hT : ∀ t, T ≤ t → ¬ (mp.sign (fin (p - g t)) =. mp.sign (fin (pb - g a)))) (nb : Option ℕ) :
    ∃ lo hi N, a ≤ lo ∧ (lo < hi ∨ lo = hi ∧ g lo = p) ∧
      ∀ fuel ≥ N, findBracket fuel func (fin p) (fin a) pinf nb = .ok (fin lo, fin hi) := by
  have ha := hf a le_rfl
  by_cases hp : p = g a
  · exact ⟨a, a, 0, le_rfl, Or.inr ⟨rfl, hp.symm⟩, fun fuel _ => by
      simp only [findBracket, ha, ok_bind, hp, fin_eq, if_true, pure_eq_ok]⟩
  · obtain ⟨N, s, ⟨d, r0, r1, e, h0, h1, h2, h3⟩, -, h5⟩ := loop_ends
      (cond := fun s : Num × Num × Num => do return mp.sign (fin p - (← func s.2.2)) =. mp.sign (fin (pb - g a)))
      (step := fun s => return (2 * s.1, s.2.2, fin a + 2 * s.1))
      (fun s => ∃ d r0 r1 : ℝ, s = (fin d, fin r0, fin r1) ∧ 1 ≤ d ∧ r1 = a + d ∧ a ≤ r0 ∧ r0 < r1)
      (fun s => ⌈1 + T - a - val s.1⌉₊) (fun s => mp.sign (fin (p - g (val s.2.2))) =. mp.sign (fin (pb - g a)))
      (fun s => (fin (2 * val s.1), s.2.2, fin (a + 2 * val s.1)))
      (by
        rintro s ⟨d, r0, r1, rfl, h0, h1, h2, h3⟩
        simp only [hf r1 (by linarith), ok_bind, pure_eq_ok, fin_sub, val_fin])
      (by
        rintro s ⟨d, r0, r1, rfl, h0, h1, h2, h3⟩ -
        simp only [ofNat_def, fin_mul, fin_add, val_fin, pure_eq_ok])
      (by
        rintro s ⟨d, r0, r1, rfl, h0, h1, h2, h3⟩ -
        exact ⟨2 * d, r1, a + 2 * d, rfl, by linarith, rfl, by linarith, by linarith⟩)
      (by
        rintro s ⟨d, r0, r1, rfl, h0, h1, h2, h3⟩ hC
        simp only [val_fin] at hC ⊢
        have : r1 < T := not_le.1 fun h => hT r1 h hC
        refine ceil_lt (by linarith) (by linarith))
      (s := (1, fin a, fin a + 1)) ⟨1, a, a + 1, rfl, le_rfl, rfl, le_rfl, by linarith⟩
    subst e
    obtain ⟨lo, hi, h6, h7, h8⟩ := bisectSteps_returns (p := p) (sg := mp.sign (fin (pb - g a))) hf (nb.getD 8) r0 r1 h2 h3
    refine ⟨lo, hi, N, h6, h7, fun fuel hn => ?_⟩
    have h9 : startBracket fuel func (fin p) (mp.sign (fin (pb - g a))) (fin a) pinf = .ok (fin r0, fin r1) := by
      have := h5 fuel hn
      simp only [startBracket, fin_eq_ninf, false_and, if_false, pinf_eq_pinf, if_true]
      rw [this]
      rfl
    simp only [findBracket, ha, hb, ok_bind, fin_eq, hp, hne, if_false, fin_sub, h9, h8]

/-- `bracketRoot` on `[a, ∞)` -/
theorem bracketRoot_right (hr : SecantFinder findroot) (hf : ∀ t, func (fin t) = .ok (fin (g t)))
    (hb : func pinf = .ok (fin pb)) (hne : g x ≠ pb) (hu : ∀ y, g y = g x → y = x)
    (hT : ∀ t, T ≤ t → ¬ (mp.sign (fin (g x - g t)) =. mp.sign (fin (pb - g a)))) (nb : Option ℕ) :
    Reaches (fun fuel => bracketRoot findroot fuel func (fin (g x)) (fin a) pinf nb) (fin x) := by
  obtain ⟨lo, hi, N, -, h, h2⟩ := findBracket_returns (fun t _ => hf t) hb hne hT nb
  refine ⟨N, fun fuel hn => ?_⟩
  simp only [bracketRoot, h2 fuel hn, ok_bind, fin_eq]
  rcases h with h | ⟨h, h3⟩
  · obtain ⟨r, h4, h5⟩ := hr (fun t => do return (← func t) - fin (g x)) (fun t => g t - g x) lo hi
      (fun t => by simp only [hf, ok_bind, fin_sub, pure_eq_ok]) ⟨x, sub_self _⟩
    rw [if_neg h.ne, h4, hu r (sub_eq_zero.1 h5)]
  · rw [if_pos h, hu lo h3]; rfl

theorem bracketRootAlways_right (hr : SecantFinder findroot) (hf : ∀ t, func (fin t) = .ok (fin (g t)))
    (hb : func pinf = .ok (fin pb)) (hne : g x ≠ pb) (hu : ∀ y, g y = g x → y = x)
    (hT : ∀ t, T ≤ t → ¬ (mp.sign (fin (g x - g t)) =. mp.sign (fin (pb - g a)))) (nb : Option ℕ) :
    Reaches (fun fuel => bracketRootAlways findroot fuel func (fin (g x)) (fin a) pinf nb) (fin x) := by
  obtain ⟨lo, hi, N, -, h, h2⟩ := findBracket_returns (fun t _ => hf t) hb hne hT nb
  refine ⟨N, fun fuel hn => ?_⟩
  simp only [bracketRootAlways, h2 fuel hn, ok_bind]
  obtain ⟨r, h4, h5⟩ := hr (fun t => do return (← func t) - fin (g x)) (fun t => g t - g x) lo hi
    (fun t => by simp only [hf, ok_bind, fin_sub, pure_eq_ok]) ⟨x, sub_self _⟩
  rw [h4, hu r (sub_eq_zero.1 h5)]

/-- The condition on the values, for a distribution function -/
theorem pass_up (hm : Monotone g) (ha : g a < pb) (t : ℝ) (ht : x ≤ t) :
    ¬ (mp.sign (fin (g x - g t)) =. mp.sign (fin (pb - g a))) := by
  rw [sign_eq_pos (by linarith)]; linarith [hm ht]

/-- The condition on the values, for a survival function -/
theorem pass_down (hm : Antitone g) (ha : pb < g a) (t : ℝ) (ht : x ≤ t) :
    ¬ (mp.sign (fin (g x - g t)) =. mp.sign (fin (pb - g a))) := by
  rw [sign_eq_neg (by linarith)]; linarith [hm ht]

/-- `bracketRoot` and `bracketRootAlways` on an interval where `func` is strictly monotone -/
theorem bracketRoot_of_bracket {A B : Num} {nb : Option ℕ} (hr : SecantFinder findroot)
    (hf : ∀ t, func (fin t) = .ok (fin (g t))) (hu : ∀ y, g y = g x → y = x)
    (h : ∃ lo hi N, lo ≤ x ∧ x ≤ hi ∧ ∀ fuel ≥ N, findBracket fuel func (fin (g x)) A B nb = .ok (fin lo, fin hi)) :
    Reaches (fun fuel => bracketRoot findroot fuel func (fin (g x)) A B nb) (fin x) ∧
    Reaches (fun fuel => bracketRootAlways findroot fuel func (fin (g x)) A B nb) (fin x) := by
  obtain ⟨lo, hi, N, h0, h1, h2⟩ := h
  obtain ⟨r, h4, h5⟩ := hr (fun t => do return (← func t) - fin (g x)) (fun t => g t - g x) lo hi
    (fun t => by simp only [hf, ok_bind, fin_sub, pure_eq_ok]) ⟨x, sub_self _⟩
  rw [hu r (sub_eq_zero.1 h5)] at h4
  constructor
  · refine ⟨N, fun fuel hn => ?_⟩
    simp only [bracketRoot, h2 fuel hn, ok_bind, fin_eq]
    split_ifs with h
    · rw [← le_antisymm h0 (h ▸ h1)]; rfl
    · exact h4
  · refine ⟨N, fun fuel hn => ?_⟩
    simp only [bracketRootAlways, h2 fuel hn, ok_bind]
    exact h4

end common

end Mpsci
