import Verif.Lemmas.Search

/-! `_generic_inv`. -/

namespace Mpsci

open Classical Num Spec Set

/-- A loop whose condition stays true does not end. -/
theorem loop_diverges {σ : Type} {cond : σ → M Prop} {step : σ → M σ} (I : σ → Prop)
    (hc : ∀ s, I s → ∃ C : Prop, cond s = .ok C ∧ C) (hs : ∀ s, I s → ∃ s', step s = .ok s' ∧ I s') (fuel : ℕ) :
    ∀ {s : σ}, I s → loop cond step fuel s = .error .diverges := by
  induction fuel with
  | zero => intro s _; rfl
  | succ n ih =>
    intro s h
    obtain ⟨C, h1, h2⟩ := hc s h
    obtain ⟨s', h3, h4⟩ := hs s h
    simp only [loop, h1, h3, ok_bind, h2, if_true]
    exact ih h4

namespace common

variable {func : Num → M Num} {g : ℝ → ℝ} {p x : ℝ} {direction : ℤ} {findroot : (Num → M Num) → Num → Num → M Num}

theorem genericInv_of (hr : BisectFinder findroot) (hf : ∀ t : ℝ, 0 < t → func (fin t) = .ok (fin (g t)))
    (hg : (direction = 1 ∧ StrictMonoOn g (Ioi 0)) ∨ (direction = -1 ∧ StrictAntiOn g (Ioi 0))) (hc : ContinuousOn g (Ioi 0))
    (hx : 0 < x) : Reaches (fun fuel => genericInv findroot fuel func (fin (g x)) direction) (fin x) := by
  obtain ⟨lo, hi, N, h1, h2, h3, h4, h5⟩ := expand0Inf_brackets hf hg hx rfl
  have hs : Icc lo hi ⊆ Ioi 0 := fun t ht => lt_of_lt_of_le h1 ht.1
  obtain ⟨r, h6, h7, h8⟩ := hr (fun k => do return (← func k) - fin (g x)) (fun t => g t - g x) lo hi (h3.trans h4)
    (fun t ht => by simp only [hf t (hs ht), ok_bind, fin_sub, pure_eq_ok]) ((hc.mono hs).sub continuousOn_const) (by
      rcases hg with ⟨-, hg⟩ | ⟨-, hg⟩
      · exact Or.inl ⟨sub_nonpos.2 (hg.monotoneOn h1 hx h3), sub_nonneg.2 (hg.monotoneOn hx h2 h4)⟩
      · exact Or.inr ⟨sub_nonneg.2 (hg.antitoneOn h1 hx h3), sub_nonpos.2 (hg.antitoneOn hx h2 h4)⟩)
  have e : r = x := by
    rcases hg with ⟨-, hg⟩ | ⟨-, hg⟩
    · exact hg.injOn (hs h6) hx (sub_eq_zero.1 h8)
    · exact hg.injOn (hs h6) hx (sub_eq_zero.1 h8)
  refine ⟨N, fun fuel hn => ?_⟩
  simp only [genericInv, h5 fuel hn, ok_bind, h7, e]

/-- The search for the upper end does not end if no value of `func` passes `p`. -/
theorem genericInv_diverges_high (hf : ∀ t : ℝ, 0 < t → func (fin t) = .ok (fin (g t)))
    (h : (direction = 1 ∧ ∀ t, 0 < t → g t < p) ∨ (direction = -1 ∧ ∀ t, 0 < t → p < g t)) (fuel : ℕ) :
    genericInv findroot fuel func (fin p) direction = .error .diverges := by
  have hl : loop (notHighEnough func (fin p) direction) (fun x => return x * fin 1.5) fuel 1 = .error .diverges := by
    refine loop_diverges (fun s => ∃ t : ℝ, s = fin t ∧ 0 < t) ?_ ?_ fuel ⟨1, rfl, one_pos⟩
    · rintro s ⟨t, rfl, ht⟩
      refine ⟨_, by simp only [notHighEnough, hf t ht, ok_bind, pure_eq_ok]; rfl, ?_⟩
      rcases h with ⟨rfl, h⟩ | ⟨rfl, h⟩
      · simpa using h t ht
      · simpa using h t ht
    · rintro s ⟨t, rfl, ht⟩
      exact ⟨_, rfl, t * 1.5, rfl, by positivity⟩
  have hd : ¬ (direction ≠ -1 ∧ direction ≠ 1) := by rcases h with ⟨rfl, -⟩ | ⟨rfl, -⟩ <;> simp
  simp only [genericInv, expand0Inf, hd, if_false, hl]
  rfl

/-- The search for the lower end does not end if all values of `func` pass `p`. -/
theorem genericInv_diverges_low (hf : ∀ t : ℝ, 0 < t → func (fin t) = .ok (fin (g t)))
    (h : (direction = 1 ∧ ∀ t, 0 < t → p < g t) ∨ (direction = -1 ∧ ∀ t, 0 < t → g t < p)) (fuel : ℕ) :
    genericInv findroot fuel func (fin p) direction = .error .diverges := by
  have hl : loop (fun x => do if x > 0 then notLowEnough func (fin p) direction x else return False)
      (fun x => return x * fin 0.5) fuel 1 = .error .diverges := by
    refine loop_diverges (fun s => ∃ t : ℝ, s = fin t ∧ 0 < t) ?_ ?_ fuel ⟨1, rfl, one_pos⟩
    · rintro s ⟨t, rfl, ht⟩
      have h0 : fin t > 0 := by rw [gt_iff, zero_def, fin_lt]; exact ht
      refine ⟨_, by simp only [h0, if_true, notLowEnough, hf t ht, ok_bind, pure_eq_ok]; rfl, ?_⟩
      rcases h with ⟨rfl, h⟩ | ⟨rfl, h⟩
      · simpa using h t ht
      · simpa using h t ht
    · rintro s ⟨t, rfl, ht⟩
      exact ⟨_, rfl, t * 0.5, rfl, by positivity⟩
  have hd : ¬ (direction ≠ -1 ∧ direction ≠ 1) := by rcases h with ⟨rfl, -⟩ | ⟨rfl, -⟩ <;> simp
  have hh : loop (notHighEnough func (fin p) direction) (fun x => return x * fin 1.5) fuel 1 = .error .diverges ∨
      ∃ v, loop (notHighEnough func (fin p) direction) (fun x => return x * fin 1.5) fuel 1 = .ok v := by
    cases fuel with
    | zero => exact Or.inl rfl
    | succ n =>
      right
      refine ⟨1, ?_⟩
      have : notHighEnough func (fin p) direction 1 = .ok False := by
        rw [one_def]
        simp only [notHighEnough, hf 1 one_pos, ok_bind, pure_eq_ok]
        congr 1
        rcases h with ⟨rfl, h⟩ | ⟨rfl, h⟩
        · simpa using (h 1 one_pos).le
        · simpa using (h 1 one_pos).le
      simp only [loop, this, ok_bind, if_false, pure_eq_ok]
  simp only [genericInv, expand0Inf, hd, if_false]
  rcases hh with hh | ⟨v, hh⟩
  · rw [hh]; rfl
  · rw [hh, ok_bind]
    simp only [hl]
    rfl

end common

end Mpsci
