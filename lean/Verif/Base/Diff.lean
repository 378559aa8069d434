import Verif.Base.Mp
import Mathlib.Analysis.Calculus.Deriv.Basic

/-! # `mp.diff` -/

namespace Mpsci

open Classical Num Filter Topology

/-- `mp.diff(f, x)`, taken to be exact: the derivative at `x` of the real function that `f` computes near `x`.  (mpmath
approximates it by a difference quotient.) -/
noncomputable def mp.diff (f : Num → M Num) : Num → M Num
  | fin x => if h : ∃ d : ℝ, ∃ L : ℝ → ℝ, (∀ᶠ t in nhds x, f (fin t) = .ok (fin (L t))) ∧ HasDerivAt L d x
      then .ok (fin h.choose) else .error .notModelled
  | _ => .error .notModelled

theorem mp.diff_eq {f : Num → M Num} {x d : ℝ} {L : ℝ → ℝ} (h1 : ∀ᶠ t in 𝓝 x, f (fin t) = .ok (fin (L t))) (h2 : HasDerivAt L d x) :
    mp.diff f (fin x) = .ok (fin d) := by
  have h : ∃ d : ℝ, ∃ L : ℝ → ℝ, (∀ᶠ t in nhds x, f (fin t) = .ok (fin (L t))) ∧ HasDerivAt L d x := ⟨d, L, h1, h2⟩
  rw [mp.diff, dif_pos h]
  obtain ⟨L', h3, h4⟩ := h.choose_spec
  have e : L' =ᶠ[𝓝 x] L := by
    filter_upwards [h1, h3] with t a b
    rw [a] at b
    exact (fin.inj (Except.ok.inj b)).symm
  rw [(h4.congr_of_eventuallyEq e.symm).unique h2]

theorem mp.diff_zero {f : Num → M Num} {r : Num} (h : mp.diff f r = .ok 0) : ∃ x : ℝ, r = fin x ∧
    ∃ L : ℝ → ℝ, (∀ᶠ t in 𝓝 x, f (fin t) = .ok (fin (L t))) ∧ HasDerivAt L 0 x := by
  cases r with
  | fin x =>
    by_cases h1 : ∃ d : ℝ, ∃ L : ℝ → ℝ, (∀ᶠ t in nhds x, f (fin t) = .ok (fin (L t))) ∧ HasDerivAt L d x
    · rw [mp.diff, dif_pos h1] at h
      have h2 := h1.choose_spec
      rw [fin.inj (Except.ok.inj h)] at h2
      exact ⟨x, rfl, h2⟩
    · rw [mp.diff, dif_neg h1] at h; exact absurd h (by simp)
  | _ => exact absurd h (by simp [mp.diff])

end Mpsci
