import Verif.Spec.Fit
import Verif.Lemmas.Common
import Mathlib.Tactic.NormNum

namespace Mpsci

open Num Spec

theorem nll_of {S : Set ℝ} {logpdf : Num → M Num} {nll : List Num → M Num} {l : ℝ → ℝ}
    (hl : ∀ x ∈ S, logpdf (fin x) = .ok (fin (l x)))
    (hn : ∀ xs : List ℝ, (∀ x ∈ xs, x ∈ S) → nll (xs.map fin) = .ok (fin (-(xs.map l).sum))) :
    NllIsNegSum S logpdf nll := fun xs hx =>
  ⟨xs.map l, by
    rw [List.forall₂_map_right_iff]
    exact List.forall₂_same.2 fun x h => hl x (hx x h), hn xs hx⟩

/-- `mp.fsum([logpdf(t) for t in x])` -/
theorem mapM_logpdf {logpdf : Num → M Num} {l : ℝ → ℝ} {xs : List ℝ}
    (hl : ∀ x ∈ xs, logpdf (fin x) = .ok (fin (l x))) :
    (xs.map fin).mapM logpdf = .ok ((xs.map l).map fin) := by
  rw [List.map_map]
  induction xs with
  | nil => simp
  | cons a t ih =>
    rw [List.map_cons, List.mapM_cons, hl a (by simp), ok_bind,
      ih fun x hx => hl x (List.mem_cons_of_mem _ hx)]
    simp

/-- `-mp.fsum([logpdf(t) for t in x])` -/
theorem nll_of_fsum {S : Set ℝ} {logpdf : Num → M Num} {nll : List Num → M Num} {l : ℝ → ℝ}
    (hl : ∀ x ∈ S, logpdf (fin x) = .ok (fin (l x)))
    (hn : ∀ xs : List ℝ, (∀ x ∈ xs, x ∈ S) →
      nll (xs.map fin) = (do return -(mp.fsum (← (xs.map fin).mapM logpdf)))) :
    NllIsNegSum S logpdf nll := nll_of hl fun xs hx => by
  rw [hn xs hx, mapM_logpdf fun x h => hl x (hx x h)]
  simp only [ok_bind, mp.fsum_fin, neg_fin, pure_eq_ok]

end Mpsci
