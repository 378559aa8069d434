import Verif.Base.Py
import Verif.Spec.Discrete
import Mathlib.Topology.Algebra.InfiniteSum.Basic
import Mathlib.Topology.Algebra.InfiniteSum.Ring
import Mathlib.Analysis.Normed.Ring.Lemmas
import Mathlib.Data.Int.Interval

/-! From sums over `ℕ` and finite sums to the discrete specification predicates. -/

namespace Mpsci

open Classical Num Spec

theorem hasSum_of {α : Type} {f g : α → ℝ} {a b : ℝ} (h : HasSum g a) (e : ∀ k, f k = g k)
    (ab : b = a) : HasSum f b := by
  rw [ab, show f = g from funext e]; exact h

/-- Extension of a mass on `ℕ` by zero. -/
noncomputable def extZ (g : ℕ → ℝ) (k : ℤ) : ℝ := if 0 ≤ k then g k.toNat else 0

@[simp] theorem extZ_nat (g : ℕ → ℝ) (n : ℕ) : extZ g n = g n := by simp [extZ]
theorem extZ_neg (g : ℕ → ℝ) {k : ℤ} (h : k < 0) : extZ g k = 0 := by simp [extZ, not_le.2 h]

theorem hasSum_int {f : ℤ → ℝ} {g : ℕ → ℝ} {a : ℝ} (h : HasSum g a) (h0 : ∀ k < 0, f k = 0)
    (hg : ∀ n : ℕ, f n = g n) : HasSum f a := by
  have hi : Function.Injective (Nat.cast : ℕ → ℤ) := Nat.cast_injective
  rw [← hi.hasSum_iff]
  · convert h using 1; funext n; exact hg n
  · intro k hk
    refine h0 k ?_
    by_contra hc
    exact hk ⟨k.toNat, by omega⟩

theorem hasSum_extZ {g : ℕ → ℝ} {a : ℝ} (h : HasSum g a) : HasSum (extZ g) a :=
  hasSum_int h (fun _ hk => extZ_neg g hk) (extZ_nat g)

/-- Sum over the masses up to `k`. -/
theorem hasSum_le {f : ℤ → ℝ} (h0 : ∀ j < 0, f j = 0) (k : ℕ) :
    HasSum (fun j : ℤ => if j ≤ k then f j else 0) (∑ j ∈ Finset.range (k + 1), f j) := by
  have h : HasSum (fun j : ℕ => if j ≤ k then f j else 0)
      (∑ j ∈ Finset.range (k + 1), if j ≤ k then f j else 0) :=
    hasSum_sum_of_ne_finset_zero fun j hj => if_neg (by simpa using hj)
  have e : (∑ j ∈ Finset.range (k + 1), if j ≤ k then f j else 0) =
      ∑ j ∈ Finset.range (k + 1), f j :=
    Finset.sum_congr rfl fun j hj => if_pos (by simpa [Nat.lt_succ_iff] using hj)
  rw [e] at h
  refine hasSum_int h (fun j hj => ?_) (fun j => ?_)
  · simp [h0 j hj]
  · simp

/-- From the sum below `k` and the total, the sum above `k`. -/
theorem hasSum_gt {f : ℤ → ℝ} {T c : ℝ} (hT : HasSum f T) {k : ℤ}
    (hc : HasSum (fun j => if j ≤ k then f j else 0) c) :
    HasSum (fun j => if k < j then f j else 0) (T - c) := by
  have e : (fun j => if k < j then f j else 0) = fun j => f j - if j ≤ k then f j else 0 := by
    funext j
    by_cases h : j ≤ k
    · simp [h, not_lt.2 h]
    · simp [h, not_le.1 h]
  rw [e]
  exact hT.sub hc

theorem hasSum_le_neg {f : ℤ → ℝ} (h0 : ∀ j < 0, f j = 0) {k : ℤ} (hk : k < 0) :
    HasSum (fun j : ℤ => if j ≤ k then f j else 0) 0 := by
  convert hasSum_zero using 1
  funext j
  by_cases h : j ≤ k
  · simp [h, h0 j (by omega)]
  · simp [h]

theorem forall_int {P : ℤ → Prop} (hn : ∀ n : ℕ, P n) (hneg : ∀ k < 0, P k) (k : ℤ) : P k := by
  rcases lt_or_ge k 0 with h | h
  · exact hneg k h
  · obtain ⟨n, rfl⟩ := Int.eq_ofNat_of_zero_le h; exact hn n

theorem mass_univ {pmf : ℤ → M Num} {f : ℤ → ℝ} (h : ∀ k, pmf k = .ok (fin (f k))) :
    Mass Set.univ pmf f := ⟨fun k _ => h k, fun k hk => absurd (Set.mem_univ k) hk⟩

/-- Variance from the first two moments. -/
theorem hasSum_var {f : ℤ → ℝ} {m s : ℝ} (h1 : HasSum f 1) (hm : HasSum (fun k : ℤ => (k:ℝ) * f k) m)
    (hs : HasSum (fun k : ℤ => (k:ℝ) * ((k:ℝ) - 1) * f k) s) :
    HasSum (fun k : ℤ => ((k:ℝ) - m) ^ 2 * f k) (s + m - m ^ 2) := by
  have := (hs.add (hm.mul_left (1 - 2 * m))).add (h1.mul_left (m ^ 2))
  convert this using 1
  · funext k; ring
  · ring

/-- A mass that is zero below `lo`, increases strictly up to `m` and does not increase from there
on. -/
theorem unimodal_from {f : ℕ → ℝ} {lo m : ℕ} (z : ∀ k < lo, f k = 0)
    (up : ∀ k, lo ≤ k → k < m → f k < f (k + 1)) (down : ∀ k ≥ m, f (k + 1) ≤ f k)
    (pos : 0 < f m) (j : ℤ) : extZ f j ≤ extZ f m ∧ (j < m → extZ f j < extZ f m) := by
  have hup : ∀ d, lo + d ≤ m → 0 < d → f (m - d) < f m := by
    intro d
    induction d with
    | zero => intro _ h; exact absurd h (lt_irrefl 0)
    | succ d ih =>
      intro hd _
      have h1 : f (m - (d + 1)) < f (m - d) := by
        have := up (m - (d + 1)) (by omega) (by omega)
        rwa [show m - (d + 1) + 1 = m - d by omega] at this
      rcases Nat.eq_zero_or_pos d with h | h
      · subst h; simpa using h1
      · exact h1.trans (ih (by omega) h)
  have hdown : ∀ d, f (m + d) ≤ f m := by
    intro d
    induction d with
    | zero => simp
    | succ d ih => exact (down (m + d) (by omega)).trans ih
  rw [extZ_nat]
  revert j
  apply forall_int
  · intro n
    rw [extZ_nat]
    rcases lt_or_ge n lo with hl | hl
    · rw [z n hl]; exact ⟨pos.le, fun _ => pos⟩
    rcases lt_or_ge n m with h | h
    · have := hup (m - n) (by omega) (by omega)
      rw [show m - (m - n) = n by omega] at this
      exact ⟨this.le, fun _ => this⟩
    · have := hdown (n - m)
      rw [show m + (n - m) = n by omega] at this
      exact ⟨this, fun h' => absurd h' (by omega)⟩
  · intro k hk
    rw [extZ_neg _ hk]
    exact ⟨pos.le, fun _ => pos⟩

/-- A mass that increases strictly up to `m` and does not increase from there on. -/
theorem unimodal {f : ℕ → ℝ} {m : ℕ} (up : ∀ k < m, f k < f (k + 1)) (down : ∀ k ≥ m, f (k + 1) ≤ f k)
    (pos : 0 < f m) (j : ℤ) : extZ f j ≤ extZ f m ∧ (j < m → extZ f j < extZ f m) :=
  unimodal_from (lo := 0) (fun _ h => absurd h (Nat.not_lt_zero _)) (fun k _ h => up k h) down pos j

theorem hasSum_gt_shift {f : ℤ → ℝ} {k : ℤ} {S : ℝ} (h : HasSum (fun i : ℕ => f (k + 1 + i)) S) :
    HasSum (fun j => if k < j then f j else 0) S := by
  have hi : Function.Injective fun i : ℕ => k + 1 + (i : ℤ) := by
    intro a b h; simpa using h
  rw [← hi.hasSum_iff]
  · refine hasSum_of h (fun i => ?_) rfl
    simp only [Function.comp_apply]
    rw [if_pos (by omega)]
  · intro j hj
    refine if_neg fun h => hj ⟨(j - k - 1).toNat, ?_⟩
    simp only
    omega

theorem hasSum_le_of_gt {f : ℤ → ℝ} {T c : ℝ} (hT : HasSum f T) {k : ℤ}
    (hc : HasSum (fun j => if k < j then f j else 0) c) :
    HasSum (fun j => if j ≤ k then f j else 0) (T - c) := by
  refine hasSum_of (hT.sub hc) (fun j => ?_) rfl
  by_cases h : j ≤ k
  · simp [h, not_lt.2 h]
  · simp [h, not_le.1 h]

end Mpsci

namespace Mpsci

/-- A mass that does not decrease up to `m` and decreases strictly from there on, as long as it is
positive. -/
theorem unimodal_hi {f : ℕ → ℝ} {m : ℕ} (h0 : ∀ k, 0 ≤ f k) (up : ∀ k < m, f k ≤ f (k + 1))
    (down : ∀ k ≥ m, 0 < f k → f (k + 1) < f k) (zero : ∀ k ≥ m, f k = 0 → f (k + 1) = 0)
    (pos : 0 < f m) (j : ℤ) : extZ f j ≤ extZ f m ∧ (m < j → extZ f j < extZ f m) := by
  have hup : ∀ d ≤ m, f (m - d) ≤ f m := by
    intro d
    induction d with
    | zero => intro _; simp
    | succ d ih =>
      intro hd
      have := up (m - (d + 1)) (by omega)
      rw [show m - (d + 1) + 1 = m - d by omega] at this
      exact this.trans (ih (by omega))
  have hdown : ∀ d, f (m + (d + 1)) < f m := by
    intro d
    induction d with
    | zero => exact down m le_rfl pos
    | succ d ih =>
      rcases (h0 (m + (d + 1))).eq_or_lt with e | e
      · have := zero (m + (d + 1)) (by omega) e.symm
        rw [show m + (d + 1 + 1) = m + (d + 1) + 1 by omega, this]; exact pos
      · exact (down (m + (d + 1)) (by omega) e).trans ih
  rw [extZ_nat]
  revert j
  apply forall_int
  · intro n
    rw [extZ_nat]
    rcases le_or_gt n m with h | h
    · have := hup (m - n) (by omega)
      rw [show m - (m - n) = n by omega] at this
      exact ⟨this, fun h' => absurd h' (by omega)⟩
    · have := hdown (n - m - 1)
      rw [show m + (n - m - 1 + 1) = n by omega] at this
      exact ⟨this.le, fun _ => this⟩
  · intro k hk
    rw [extZ_neg _ hk]
    exact ⟨pos.le, fun _ => pos⟩

/-- A mass that is zero outside `lo, ..., hi - 1` is summed by the `range(lo, hi)`. -/
theorem hasSum_range {f : ℤ → ℝ} {lo hi : ℤ} (h : ∀ k, ¬ (lo ≤ k ∧ k < hi) → f k = 0) :
    HasSum f ((py.range lo hi).map f).sum := by
  rw [py.sum_range]
  exact hasSum_sum_of_ne_finset_zero fun k hk => h k (by simpa using hk)

end Mpsci
