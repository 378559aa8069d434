import Verif.Lemmas.Fun.Digammainv

/-! `digammainv`. -/

namespace Mpsci.fun_

open Classical Num Spec Set

variable {findroot : (Num → M Num) → Num → Num → M Num} {y x : ℝ}

/-- C52: with a root finder that finds the zero in a bracket, `digammainv` returns the positive number at which the digamma
function is `y`.  Missing: `-3/8 < y ≤ -1/8`, where the bracket may miss the solution (`bracket_fails`). -/
theorem digammainv_partial (hr : RootFinder findroot) (hy : y ≤ -(3 / 8) ∨ -(1 / 8) < y) :
    ∃ x : ℝ, 0 < x ∧ digammainv findroot (fin y) = .ok (fin x) ∧ mp.digamma (fin x) = .ok (fin y) ∧
      ∀ t : ℝ, 0 < t → mp.digamma (fin t) = .ok (fin y) → t = x := by
  have hb : Bracketed y := by
    rcases hy with h | h
    · rcases le_or_gt y (-3) with h3 | h3
      · exact bracket_lo h3
      · exact bracket_mid h3 h
    · exact bracket_hi h
  obtain ⟨x, h0, h1, h2⟩ := digammainv_bracketed hr hb
  refine ⟨x, h0, h1, by rw [mp.digamma_pos h0, h2], fun t ht h => ?_⟩
  rw [mp.digamma_pos ht] at h
  exact psi_inj ht h0 ((Num.fin.inj (Except.ok.inj h)).trans h2.symm)

/-- C52: for every `y`, if the root finder returns a positive zero, it is the only positive number at which the digamma
function is `y`. -/
theorem digammainv_sound_partial (hr : SoundFinderB findroot) (h : digammainv findroot (fin y) = .ok (fin x)) (hx : 0 < x) :
    mp.digamma (fin x) = .ok (fin y) ∧ ∀ t : ℝ, 0 < t → mp.digamma (fin t) = .ok (fin y) → t = x := by
  have h2 := digammainv_sound hr h hx
  refine ⟨by rw [mp.digamma_pos hx, h2], fun t ht h => ?_⟩
  rw [mp.digamma_pos ht] at h
  exact psi_inj ht hx ((Num.fin.inj (Except.ok.inj h)).trans h2.symm)

/-- C52: every real number has such a solution. -/
theorem digammainv_exists (y : ℝ) : ∃ x : ℝ, 0 < x ∧ mp.digamma (fin x) = .ok (fin y) := by
  obtain ⟨x, h, e⟩ := psi_exists y
  exact ⟨x, h, by rw [mp.digamma_pos h, e]⟩

/-- C52 fails in this form at `y = -1/8`: the bracketing solver is called with an interval at both of whose ends the
digamma function is less than `y`. -/
theorem bracket_fails : ∃ a b da db : ℝ, 0 < a ∧ a < b ∧ digammainv findroot (fin (-(1 / 8))) =
      findroot (fun x => do return (← mp.digamma x) - fin (-(1 / 8))) (fin a) (fin b) ∧
    mp.digamma (fin a) = .ok (fin da) ∧ mp.digamma (fin b) = .ok (fin db) ∧ da < -(1 / 8) ∧ db < -(1 / 8) := by
  set x0 := Real.exp (-(1 / 8) / (2332 / 1000)) + 8661 / 100000 with hx0
  have h0 : 0 < x0 := by positivity
  have hb := bracket_miss
  rw [← hx0] at hb
  refine ⟨4 * x0 / 5, 5 * x0 / 4, _, _, by positivity, by linarith, ?_, mp.digamma_pos (by positivity), mp.digamma_pos (by positivity), ?_, hb⟩
  · simp only [digammainv, start_mid (y := -(1 / 8)) (by norm_num) le_rfl, ← hx0, ok_bind, ofNat_def, fin_mul,
      fin_div _ (show (5:ℝ) ≠ 0 by norm_num), fin_div _ (show (4:ℝ) ≠ 0 by norm_num)]
  · exact (psi_mono (by positivity) (by linarith)).trans_lt hb

example : ∃ findroot, RootFinder findroot ∧ ∃ x : ℝ, 0 < x ∧ digammainv findroot (fin 1) = .ok (fin x) := by
  obtain ⟨f, hf⟩ := exists_rootFinder
  obtain ⟨x, h0, h1, -⟩ := digammainv_partial hf (y := 1) (Or.inr (by norm_num))
  exact ⟨f, hf, x, h0, h1⟩

end Mpsci.fun_
