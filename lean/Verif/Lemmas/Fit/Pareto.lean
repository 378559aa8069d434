import Verif.Model.Fit.Positive
import Verif.Lemmas.Dist.Pareto
import Verif.Lemmas.Fit.Basic
import Mathlib.Analysis.Convex.SpecificFunctions.Basic

/-! `pareto.nll` and the likelihood of the Pareto distribution. -/

namespace Mpsci

open Classical Num Spec common

@[simp] theorem badLow_ninf (x : List ℝ) (b : Bool) : badLow (x.map fin) (some ninf) b ↔ False := by
  cases b <;> simp [badLow]

theorem validateXBounds_all (x : List ℝ) (a b : Bool) :
    validateXBounds (x.map fin) (some ninf) (some pinf) a b = .ok (x.map fin) :=
  validateXBounds_ok (by simp) (by simp)

theorem bounds_weak {x : List ℝ} {lo : ℝ} (h : ∀ t ∈ x, lo ≤ t) (b : Bool) :
    validateXBounds (x.map fin) (some (fin lo)) (some pinf) false b = .ok (x.map fin) :=
  validateXBounds_ok (by rw [badLow_weak]; push Not; exact h) (by simp)

theorem bounds_strict {x : List ℝ} {lo : ℝ} (h : ∀ t ∈ x, lo < t) (b : Bool) :
    validateXBounds (x.map fin) (some (fin lo)) (some pinf) true b = .ok (x.map fin) :=
  validateXBounds_ok (by rw [badLow_strict]; push Not; exact h) (by simp)

theorem list_nonempty {xs : List ℝ} (hv : ¬ ∃ c, ∀ x ∈ xs, x = c) : xs ≠ [] := by
  rintro rfl; exact hv ⟨0, by simp⟩

/-- `log (u + e^v)` is convex in `v`. -/
theorem log_add_tangent {u s s' : ℝ} (hu : 0 ≤ u) (hs : 0 < s) (hs' : 0 < s') :
    Real.log (u + s) + s / (u + s) * (Real.log s' - Real.log s) ≤ Real.log (u + s') := by
  have h1 : 0 < u + s := by linarith
  have h2 : 0 < u + s' := by linarith
  have h3 : 0 < s' / s := div_pos hs' hs
  have h := strictConcaveOn_log_Ioi.concaveOn.2 (show (1:ℝ) ∈ Set.Ioi 0 by simp) (show s' / s ∈ Set.Ioi 0 from h3)
    (show 0 ≤ u / (u + s) by positivity) (show 0 ≤ s / (u + s) by positivity) (by field_simp)
  have e : (u / (u + s)) • (1:ℝ) + (s / (u + s)) • (s' / s) = (u + s') / (u + s) := by
    simp only [smul_eq_mul]; field_simp
  rw [e, Real.log_div h2.ne' h1.ne', Real.log_one, Real.log_div hs'.ne' hs.ne'] at h
  simp only [smul_eq_mul, mul_zero, zero_add] at h
  linarith

end Mpsci

namespace Mpsci.pareto

open Classical Num Spec common

variable {b loc s : ℝ} {xs : List ℝ}

noncomputable def l (b loc s x : ℝ) : ℝ := Real.log b - (b + 1) * Real.log (x - loc) + b * Real.log s

theorem logpdf_l (hb : 0 < b) (hs : 0 < s) {x : ℝ} (h : loc + s ≤ x) :
    logpdf (fin x) (fin b) (fin loc) (fin s) = .ok (fin (l b loc s x)) := by
  have h1 : 0 < x - loc := by linarith
  simp only [logpdf, validate_ok hb hs, ok_bind, fin_add, fin_lt, h.not_gt, if_false, mp.log_pos hb, fin_sub, mp.log_pos h1,
    mp.log_pos hs, one_def, fin_mul, pure_eq_ok, l]

theorem nll_unfold (hb : 0 < b) (hs : 0 < s) (h : ∀ x ∈ xs, loc + s ≤ x) : nll (xs.map fin) (fin b) (fin loc) (fin s) =
    (do return -(mp.fsum (← (xs.map fin).mapM (logpdf · (fin b) (fin loc) (fin s))))) := by
  have h1 : validateXBounds (xs.map fin) (some (fin (loc + s))) none false false = .ok (xs.map fin) :=
    validateXBounds_ok (by rw [badLow_weak]; push Not; exact h) (by simp)
  simp only [nll, validate_ok hb hs, ok_bind, fin_add, h1]

/-- The likelihood, as a function of the mean of the logarithms. -/
theorem nll_eval (hn : xs ≠ []) (hb : 0 < b) (hs : 0 < s) (h : ∀ x ∈ xs, loc + s ≤ x) :
    nll (xs.map fin) (fin b) (fin loc) (fin s) = .ok (fin (xs.length *
      ((b + 1) * sampleMean (xs.map fun x => Real.log (x - loc)) - Real.log b - b * Real.log s))) := by
  rw [nll_unfold hb hs h, mapM_logpdf fun x hx => logpdf_l hb hs (h x hx)]
  simp only [ok_bind, mp.fsum_fin, neg_fin, pure_eq_ok]
  have e : ∀ x, l b loc s x = (Real.log b + b * Real.log s) + -(b + 1) * Real.log (x - loc) := fun x => by rw [l]; ring
  rw [List.map_congr_left fun x _ => e x, sum_map_affine, sum_eq_mean hn]
  congr 2; ring

theorem meanLog_mono {loc' : ℝ} (h : loc' ≤ loc) (hx : ∀ x ∈ xs, loc < x) :
    sampleMean (xs.map fun x => Real.log (x - loc)) ≤ sampleMean (xs.map fun x => Real.log (x - loc')) :=
  sampleMean_le fun x hm => Real.log_le_log (by have := hx x hm; linarith) (by linarith)

theorem meanLog_gt (hv : ¬ ∃ c, ∀ x ∈ xs, x = c) (hs : 0 < s) (hx : ∀ x ∈ xs, loc + s ≤ x) :
    0 < sampleMean (xs.map fun x => Real.log (x - loc)) - Real.log s := by
  have hn := list_nonempty hv
  have e : sampleMean (xs.map fun x => Real.log (x - loc)) - Real.log s =
      sampleMean (xs.map fun x => -Real.log s + 1 * Real.log (x - loc)) := by
    rw [sampleMean_affine hn]; ring
  rw [e]
  refine sampleMean_pos (fun x hm => ?_) ?_
  · have := Real.log_le_log hs (show s ≤ x - loc by linarith [hx x hm])
    linarith
  · by_contra h
    push Not at h
    refine hv ⟨loc + s, fun x hm => le_antisymm ?_ (hx x hm)⟩
    have h1 := h x hm
    by_contra h2
    have := Real.log_lt_log hs (show s < x - loc by linarith [not_le.1 h2])
    linarith

theorem sumLog_eval (hx : ∀ x ∈ xs, loc < x) : (xs.map fin).mapM (fun t => mp.log (t - fin loc)) =
    .ok ((xs.map fun x => Real.log (x - loc)).map fin) := by
  refine mapM_logpdf fun x hm => ?_
  rw [fin_sub, mp.log_pos (by have := hx x hm; linarith)]

theorem fsum_mean (hn : xs ≠ []) (g : ℝ → ℝ) : mp.fsum ((xs.map g).map fin) /. stats.len (xs.map fin) =
    .ok (fin (sampleMean (xs.map g))) := by
  rw [mp.fsum_fin, stats.len, List.length_map, fin_div _ (length_pos hn).ne', sampleMean, List.length_map]

end Mpsci.pareto
