import Verif.Model.Fit.BetaPrime
import Verif.Lemmas.Dist.BetaPrime
import Verif.Lemmas.Fit.Basic
import Verif.Lemmas.Fit.Pareto
import Verif.Spec.RootFinder

/-! The likelihood of the beta prime distribution. -/

namespace Mpsci.betaprime

open Classical Num Spec common Set bpD

variable {a b s : ℝ} {xs : List ℝ}

/-- positive data -/
def Data (xs : List ℝ) : Prop := ∀ x ∈ xs, 0 < x

theorem bounds (hx : Data xs) : validateXBounds (xs.map fin) (some (fin 0)) (some pinf) false true = .ok (xs.map fin) :=
  bounds_weak (fun x h => (hx x h).le) true

noncomputable def ml (xs : List ℝ) : ℝ := sampleMean (xs.map Real.log)
noncomputable def m1 (xs : List ℝ) (s : ℝ) : ℝ := sampleMean (xs.map fun x => Real.log (1 + x / s))
noncomputable def mr (xs : List ℝ) (s : ℝ) : ℝ := sampleMean (xs.map fun x => x / s / (1 + x / s))

noncomputable def l (a b s x : ℝ) : ℝ :=
  (a - 1) * (Real.log x - Real.log s) - (a + b) * Real.log (1 + x / s) - Real.log (betaFn a b) - Real.log s

theorem logpdf_l (ha : 0 < a) (hb : 0 < b) (hs : 0 < s) {x : ℝ} (hx : 0 < x) :
    logpdf (fin x) (fin a) (fin b) (fin s) = .ok (fin (l a b s x)) := by
  have hz := div_pos hx hs
  rw [logpdf_pos ha hb hs hx, f_of_nonneg hz.le, Real.log_div (g_pos ha hb hz).ne' hs.ne', log_g ha hb hz, Real.log_div hx.ne' hs.ne', l]

/-- the negative log-likelihood, divided by the number of data -/
noncomputable def N (xs : List ℝ) (a b s : ℝ) : ℝ :=
  Real.log (betaFn a b) - (a - 1) * (ml xs - Real.log s) + (a + b) * m1 xs s + Real.log s

theorem sum_l (hn : xs ≠ []) (a b s : ℝ) : -(xs.map (l a b s)).sum = xs.length * N xs a b s := by
  have h0 := (length_pos hn).ne'
  have e : (xs.map (l a b s)).sum = (a - 1) * (xs.map Real.log).sum - (a + b) * (xs.map fun x => Real.log (1 + x / s)).sum
      - xs.length * ((a - 1) * Real.log s + Real.log (betaFn a b) + Real.log s) := by
    clear h0 hn
    induction xs with
    | nil => simp
    | cons x t ih =>
      simp only [List.map_cons, List.sum_cons, List.length_cons, ih, l]; push_cast; ring
  rw [e, N, ml, m1, sampleMean, sampleMean, List.length_map, List.length_map]
  field_simp; ring

theorem nll_eval (hn : xs ≠ []) (hx : Data xs) (ha : 0 < a) (hb : 0 < b) (hs : 0 < s) :
    nll (xs.map fin) (fin a) (fin b) (fin s) = .ok (fin (xs.length * N xs a b s)) := by
  have h : (xs.map fin).mapM (fun x => logpdf x (fin a) (fin b) (fin s)) = .ok ((xs.map (l a b s)).map fin) :=
    mapM_logpdf fun x hm => logpdf_l ha hb hs (hx x hm)
  simp only [nll, validate_ok ha hb hs, ok_bind, zero_def, bounds hx, h, mp.fsum_fin, neg_fin, pure_eq_ok, sum_l hn]

/-- the equations for `a` and `b` give the minimum over these two -/
theorem N_minAB (ha : 0 < a) (hb : 0 < b) (h1 : psi a - psi (a + b) = ml xs - m1 xs s - Real.log s) (h2 : psi b - psi (a + b) = -m1 xs s)
    {a' b' : ℝ} (ha' : 0 < a') (hb' : 0 < b') : N xs a b s ≤ N xs a' b' s := by
  have h := betaD.logBeta_tangent ha hb ha' hb'
  rw [h1, h2] at h
  rw [N, N]; linarith
theorem N_minA (ha : 0 < a) (hb : 0 < b) (h1 : psi a - psi (a + b) = ml xs - m1 xs s - Real.log s)
    {a' : ℝ} (ha' : 0 < a') : N xs a b s ≤ N xs a' b s := by
  have h := betaD.logBeta_tangent ha hb ha' hb
  rw [h1] at h
  rw [N, N]; linarith
theorem N_minB (ha : 0 < a) (hb : 0 < b) (h2 : psi b - psi (a + b) = -m1 xs s)
    {b' : ℝ} (hb' : 0 < b') : N xs a b s ≤ N xs a b' s := by
  have h := betaD.logBeta_tangent ha hb ha hb'
  rw [h2] at h
  rw [N, N]; linarith

theorem m1_tangent (hn : xs ≠ []) (hx : Data xs) (hs : 0 < s) {s' : ℝ} (hs' : 0 < s') :
    m1 xs s - mr xs s * (Real.log s' - Real.log s) ≤ m1 xs s' := by
  have h : m1 xs s + (-(Real.log s' - Real.log s)) * mr xs s ≤ m1 xs s' := by
    rw [m1, mr, ← sampleMean_mul, ← sampleMean_add, m1]
    refine sampleMean_le fun x hm => ?_
    have hx0 := hx x hm
    have h1 := log_add_tangent hx0.le hs hs'
    have e : ∀ t : ℝ, 0 < t → Real.log (1 + x / t) = Real.log (x + t) - Real.log t := fun t ht => by
      rw [← Real.log_div (by positivity) ht.ne']; congr 1; field_simp; ring
    have e2 : s / (x + s) = 1 - x / s / (1 + x / s) := by field_simp; ring
    rw [e s hs, e s' hs']
    rw [e2] at h1
    linarith
  linarith

/-- the equation for `scale` gives the minimum over `scale` -/
theorem N_minS (hn : xs ≠ []) (hx : Data xs) (ha : 0 < a) (hb : 0 < b) (hs : 0 < s) (h : a = (a + b) * mr xs s) {s' : ℝ} (hs' : 0 < s') :
    N xs a b s ≤ N xs a b s' := by
  have h1 := mul_le_mul_of_nonneg_left (m1_tangent hn hx hs hs') (add_pos ha hb).le
  have h2 : (a + b) * (m1 xs s - mr xs s * (Real.log s' - Real.log s)) = (a + b) * m1 xs s - a * (Real.log s' - Real.log s) := by
    rw [mul_sub, ← mul_assoc, ← h]
  rw [h2] at h1
  rw [N, N]; linarith

theorem mr_mem (hn : xs ≠ []) (hx : Data xs) (hs : 0 < s) : 0 < mr xs s ∧ mr xs s < 1 := by
  have h0 : ∀ x ∈ xs, 0 < x / s := fun x hm => div_pos (hx x hm) hs
  obtain ⟨y, hy⟩ := List.exists_mem_of_ne_nil _ hn
  constructor
  · exact sampleMean_pos (fun x hm => (div_pos (h0 x hm) (by linarith [h0 x hm])).le) ⟨y, hy, div_pos (h0 y hy) (by linarith [h0 y hy])⟩
  · have h1 : 0 < sampleMean (xs.map fun x => 1 - x / s / (1 + x / s)) := by
      have h2 : ∀ x ∈ xs, 0 < 1 - x / s / (1 + x / s) := fun x hm => by
        have := h0 x hm
        rw [sub_pos, div_lt_one (by linarith)]; linarith
      exact sampleMean_pos (fun x hm => (h2 x hm).le) ⟨y, hy, h2 y hy⟩
    have h2 : sampleMean (xs.map fun x => 1 - x / s / (1 + x / s)) = 1 - mr xs s := by
      have := sampleMean_affine hn (fun x => x / s / (1 + x / s)) 1 (-1)
      rw [mr]
      simp only [neg_one_mul, ← sub_eq_add_neg] at this
      exact this
    linarith

theorem meanLog_eval (hn : xs ≠ []) (hx : Data xs) : meanLog (xs.map fin) = .ok (fin (ml xs)) := by
  have h : (xs.map fin).mapM (fun t => mp.log t) = .ok ((xs.map Real.log).map fin) := mapM_logpdf fun x hm => mp.log_pos (hx x hm)
  simp only [meanLog, h, ok_bind, mean_fin (show xs.map Real.log ≠ [] by simpa using hn), ml]
theorem meanLog1p_eval (hn : xs ≠ []) (hx : Data xs) (hs : 0 < s) : meanLog1p (xs.map fin) (fin s) = .ok (fin (m1 xs s)) := by
  have h : (xs.map fin).mapM (fun t => do mp.log1p (← t /. fin s)) = .ok ((xs.map fun x => Real.log (1 + x / s)).map fin) :=
    mapM_logpdf fun x hm => by
      have := div_pos (hx x hm) hs
      simp only [fin_div _ hs.ne', ok_bind, mp.log1p_pos (show -1 < x / s by linarith)]
  simp only [meanLog1p, h, ok_bind]
  rw [mean_fin (by simpa using hn), m1]
theorem meanRatio_eval (hn : xs ≠ []) (hx : Data xs) (hs : 0 < s) : meanRatio (xs.map fin) (fin s) = .ok (fin (mr xs s)) := by
  have h : (xs.map fin).mapM (fun t => do (← t /. fin s) /. (1 + (← t /. fin s))) = .ok ((xs.map fun x => x / s / (1 + x / s)).map fin) :=
    mapM_logpdf fun x hm => by
      have := div_pos (hx x hm) hs
      simp only [fin_div _ hs.ne', ok_bind, one_def, fin_add, fin_div _ (show 1 + x / s ≠ 0 by linarith)]
  simp only [meanRatio, h, ok_bind]
  rw [mean_fin (by simpa using hn), mr]

end Mpsci.betaprime
