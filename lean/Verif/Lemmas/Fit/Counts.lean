import Verif.Model.Fit.Counts
import Verif.Spec.Counts
import Verif.Lemmas.Common
import Verif.Lemmas.Fit.Basic
import Verif.Lemmas.Stats.Basic

/-! Data with counts. -/

namespace Mpsci

open Classical Num Spec

theorem sum_replicated {α : Type} (l : α → ℝ) (x : List α) (c : List ℕ) :
    ((replicated x c).map l).sum = (List.zipWith (fun t (n : ℕ) => (n:ℝ) * l t) x c).sum := by
  induction x generalizing c with
  | nil => simp [replicated]
  | cons a x ih =>
    cases c with
    | nil => simp [replicated]
    | cons n c => rw [stats.replicated_cons]; simp [ih]

theorem meant_mem {ks : List ℤ} {c : Option (List ℕ)} {k : ℤ} (h : k ∈ meant ks c) : k ∈ ks := by
  cases c with
  | none => exact h
  | some c => exact stats.mem_replicated h

theorem ofInt_natCast (n : ℕ) : ofInt (n : ℤ) = fin (n : ℝ) := by simp [ofInt_def]

theorem intOf_ofInt (k : ℤ) : intOf (ofInt k) = k := by simp [intOf, ofInt_def]

theorem ints_eq (ks : List ℤ) : ints ks = (ks.map fun k : ℤ => (k:ℝ)).map fin := by
  simp [ints, ofInt_def]

theorem int_ofInt (k : ℤ) : py.int (ofInt k) = .ok k := by rw [ofInt_def]; exact py.int_cast k

namespace common

theorem validateCounts_some {x : List Num} {c : List ℕ} (h : c.length = x.length) (b : Bool) :
    validateCounts x (counts (some c)) b = .ok (counts (some c)) := by
  have h1 : (c.map fun n : ℕ => ofInt n).mapM (fun t : Num => do return decide (¬ t =. ofInt (← py.int t) ∨ t < 0)) =
      .ok (c.map fun _ => false) := by
    rw [List.mapM_map]
    refine mapM_ok _ fun n _ => ?_
    have : ¬ (n:ℝ) < 0 := (Nat.cast_nonneg n).not_gt
    show (py.int (ofInt n) >>= fun a => pure (decide (¬ ofInt n =. ofInt a ∨ ofInt n < 0))) = _
    rw [int_ofInt, ok_bind, pure_eq_ok]
    simp [ofInt_def, zero_def, this]
  simp only [validateCounts, counts, Option.map_some, List.length_map, h, ne_eq, not_true, if_false, h1, ok_bind]
  simp

theorem validateCounts_none (x : List Num) : validateCounts x (counts none) false = .ok (counts none) := rfl

theorem validateCounts_match {ks : List ℤ} {c : Option (List ℕ)} (h : Matching ks c) :
    validateCounts (ints ks) (counts c) false = .ok (counts c) := by
  cases c with
  | none => rfl
  | some c => exact validateCounts_some (by rw [h c rfl]; simp [ints]) _

theorem validateCounts_bad {x : List Num} {c : List ℝ} (h : c.length ≠ x.length ∨ ∃ v ∈ c, ∀ n : ℕ, v ≠ n) (b : Bool) :
    validateCounts x (some (c.map fin)) b = .error .valueError := by
  by_cases hl : c.length = x.length
  · obtain ⟨v, hv, hn⟩ := h.resolve_left (by simpa using hl)
    have h1 : (c.map fin).mapM (fun t : Num => do return decide (¬ t =. ofInt (← py.int t) ∨ t < 0)) =
        .ok (c.map fun t => decide (¬ (t = ((if 0 ≤ t then ⌊t⌋ else ⌈t⌉ : ℤ) : ℝ)) ∨ t < 0)) := by
      rw [List.mapM_map]
      refine mapM_ok _ fun t _ => ?_
      simp only [py.int, ok_bind, pure_eq_ok]
      simp [ofInt_def, zero_def]
    have h2 : (c.map fun t : ℝ => decide (¬ (t = ((if 0 ≤ t then ⌊t⌋ else ⌈t⌉ : ℤ) : ℝ)) ∨ t < 0)).any id = true := by
      rw [List.any_eq_true]
      refine ⟨_, List.mem_map_of_mem hv, ?_⟩
      simp only [id, decide_eq_true_eq]
      by_contra hc
      push Not at hc
      rw [if_pos hc.2] at hc
      have h3 : (0:ℤ) ≤ ⌊v⌋ := Int.floor_nonneg.2 hc.2
      refine hn ⌊v⌋.toNat ?_
      have : ((⌊v⌋.toNat : ℤ) : ℝ) = (⌊v⌋ : ℝ) := by rw [Int.toNat_of_nonneg h3]
      exact hc.1.trans (this.symm.trans (Int.cast_natCast _))
    simp only [validateCounts, List.length_map, hl, ne_eq, not_true, if_false, h1, ok_bind, h2]
    rfl
  · simp only [validateCounts, List.length_map, hl, ne_eq, not_false_eq_true, if_true]
    rfl

/-- The evaluation of `nll` for data with counts. -/
theorem nllCounts_eval {lp : ℤ → M Num} {l : ℤ → ℝ} {ks : List ℤ} (hl : ∀ k ∈ ks, lp k = .ok (fin (l k)))
    (c : List ℕ) : nllCounts lp (ints ks) (some (c.map fun n : ℕ => ofInt n)) =
      .ok (fin (-((replicated ks c).map l).sum)) := by
  have h : ∀ (ks : List ℤ) (c : List ℕ), (∀ k ∈ ks, lp k = .ok (fin (l k))) →
      ((ints ks).zip (c.map fun n : ℕ => ofInt n)).mapM (fun tc : Num × Num => do return tc.2 * (← lp (intOf tc.1))) =
      .ok ((List.zipWith (fun k (n : ℕ) => (n:ℝ) * l k) ks c).map fin) := by
    intro ks
    induction ks with
    | nil => intro c _; simp [ints]
    | cons k ks ih =>
      intro c hl
      cases c with
      | nil => simp [ints]
      | cons n c =>
        have h1 := ih c fun k hk => hl k (by simp [hk])
        simp only [ints, pure_eq_ok, ofInt_natCast] at h1
        simp only [ints, List.map_cons, List.zip_cons_cons, List.mapM_cons, h1, intOf_ofInt, hl k (by simp), ok_bind, ofInt_natCast,
          fin_mul, pure_eq_ok, List.zipWith_cons_cons]
  rw [nllCounts, Option.getD_some, h ks c hl, ok_bind, mp.fsum_fin, neg_fin, pure_eq_ok, sum_replicated]

theorem replicated_ones {α : Type} (ks : List α) : replicated ks (List.replicate ks.length 1) = ks := by
  induction ks with
  | nil => simp [replicated]
  | cons k ks ih => rw [List.length_cons, List.replicate_succ, stats.replicated_cons, ih]; simp

theorem nllCounts_meant {lp : ℤ → M Num} {l : ℤ → ℝ} {ks : List ℤ} (hl : ∀ k ∈ ks, lp k = .ok (fin (l k)))
    {c : Option (List ℕ)} (hc : Matching ks c) : (validateCounts (ints ks) (counts c) true >>= nllCounts lp (ints ks)) =
      .ok (fin (-((meant ks c).map l).sum)) := by
  cases c with
  | none =>
    have : validateCounts (ints ks) (counts none) true = .ok (some ((List.replicate ks.length 1).map fun n : ℕ => ofInt n)) := by
      simp [validateCounts, counts, ints, ofInt_def, one_def]
    rw [this, ok_bind, nllCounts_eval hl, replicated_ones]; rfl
  | some c =>
    rw [validateCounts_some (by rw [hc c rfl]; simp [ints]), ok_bind]
    exact nllCounts_eval hl c

end common

/-- C29, C30 from an evaluation of `nll`. -/
theorem nll_countsSpec {S : Set ℤ} {lp : ℤ → M Num} {nll : List Num → Option (List Num) → M Num} {l : ℤ → ℝ}
    (hl : ∀ k ∈ S, lp k = .ok (fin (l k)))
    (h : ∀ ks : List ℤ, (∀ k ∈ ks, k ∈ S) → ∀ c, Matching ks c → nll (ints ks) (counts c) = .ok (fin (-((meant ks c).map l).sum))) :
    NllIsNegSumZ S lp (nll · none) ∧ CountsReplicate S nll := by
  refine ⟨fun ks hk => ⟨ks.map l, ?_, ?_⟩, fun ks c hc hk => ⟨-((replicated ks c).map l).sum, ?_, ?_⟩⟩
  · rw [List.map_map]; exact mapM_ok _ fun k hm => hl k (hk k hm)
  · exact h ks hk none (fun _ h => by cases h)
  · exact h ks hk (some c) (fun _ h => by cases h; exact hc)
  · exact h _ (fun k hm => hk k (stats.mem_replicated hm)) none (fun _ h => by cases h)

/-- The mean of data with counts. -/
theorem mean_meant {ks : List ℤ} {c : Option (List ℕ)} (hc : Matching ks c) (hn : meant ks c ≠ []) (φ : ℝ → ℝ) :
    stats.mean (ks.map fun k : ℤ => fin (φ k)) (counts c) = .ok (fin (sampleMean ((meant ks c).map fun k : ℤ => φ k))) := by
  cases c with
  | none =>
    have h := mean_fin (xs := ks.map fun k : ℤ => φ k) (by simpa [meant] using hn)
    rw [List.map_map] at h
    exact h
  | some c =>
    have hl : c.length = ks.length := hc c rfl
    have h1 : (mp.fsum (c.map fun n : ℕ => ofInt n)) = fin (c.sum : ℝ) := by
      rw [show (c.map fun n : ℕ => ofInt n) = (c.map fun n : ℕ => (n:ℝ)).map fin by simp [ofInt_natCast], mp.fsum_fin, Nat.cast_list_sum]
    have h2 : ((replicated ks c).map fun k : ℤ => φ k).length = c.sum := by
      have := sum_replicated (fun _ => (1:ℝ)) ks c
      have h3 : (List.zipWith (fun (_ : ℤ) n => ((n:ℕ):ℝ) * 1) ks c) = c.map fun n : ℕ => (n:ℝ) := by
        rw [show (fun (_ : ℤ) n => ((n:ℕ):ℝ) * 1) = fun (_ : ℤ) (n : ℕ) => (n:ℝ) from by simp]
        clear this hn hc h1
        induction ks generalizing c with
        | nil => simp at hl; simp [hl]
        | cons k ks ih => cases c with
          | nil => simp at hl
          | cons n c => simp only [List.zipWith_cons_cons, List.map_cons, ih c (by simpa using hl)]
      rw [h3, ← Nat.cast_list_sum] at this
      rw [List.map_const', List.sum_replicate, nsmul_eq_mul, mul_one] at this
      rw [List.length_map]; exact_mod_cast this
    have h3 : (List.zipWith (fun t w => t * w) (ks.map fun k : ℤ => fin (φ k)) (c.map fun n : ℕ => ofInt n)) =
        (List.zipWith (fun (k : ℤ) (n : ℕ) => (n:ℝ) * φ k) ks c).map fin := by
      rw [List.zipWith_map, List.map_zipWith]
      congr 1; funext k n; rw [ofInt_natCast, fin_mul, mul_comm]
    have h4 : (c.sum : ℝ) ≠ 0 := by
      rw [← h2]
      have : 0 < ((replicated ks c).map fun k : ℤ => φ k).length := by
        rw [List.length_map]; exact List.length_pos_iff.2 hn
      exact_mod_cast this.ne'
    simp only [stats.mean, counts, Option.map_some, List.length_map, hl, ne_eq, not_true, if_false, h1, zero_def, fin_eq, h4, h3,
      mp.fsum_fin, fin_div _ h4]
    simp only [meant, sampleMean, h2, sum_replicated]

theorem mean_ints {ks : List ℤ} {c : Option (List ℕ)} (hc : Matching ks c) (hn : meant ks c ≠ []) :
    stats.mean (ints ks) (counts c) = .ok (fin (sampleMean ((meant ks c).map fun k : ℤ => (k:ℝ)))) := by
  have := mean_meant hc hn id
  exact this

end Mpsci
