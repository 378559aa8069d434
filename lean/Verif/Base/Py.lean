import Verif.Base.Num
import Mathlib.Data.Int.Interval
import Mathlib.Algebra.BigOperators.Group.Finset.Basic
import Mathlib.Algebra.BigOperators.Intervals

/-!
# Python built-ins on exact integers
-/

namespace Mpsci.py

/-- `range(lo, hi)` -/
def range (lo hi : ℤ) : List ℤ := (List.range (hi - lo).toNat).map fun (i : ℕ) => lo + (i : ℤ)

/-- `range(hi, lo, -1)` -/
def rangeDown (hi lo : ℤ) : List ℤ := (List.range (hi - lo).toNat).map fun (i : ℕ) => hi - (i : ℤ)

theorem mem_range {lo hi k : ℤ} : k ∈ range lo hi ↔ lo ≤ k ∧ k < hi := by
  simp only [range, List.mem_map, List.mem_range]
  constructor
  · rintro ⟨i, h1, h2⟩; omega
  · rintro ⟨h1, h2⟩; exact ⟨(k - lo).toNat, by omega, by omega⟩

theorem mem_rangeDown {lo hi k : ℤ} : k ∈ rangeDown hi lo ↔ lo < k ∧ k ≤ hi := by
  simp only [rangeDown, List.mem_map, List.mem_range]
  constructor
  · rintro ⟨i, h1, h2⟩; omega
  · rintro ⟨h1, h2⟩; exact ⟨(hi - k).toNat, by omega, by omega⟩

theorem nodup_range (lo hi : ℤ) : (range lo hi).Nodup := by
  refine List.Nodup.map ?_ List.nodup_range
  intro a b h; simpa using h

theorem nodup_rangeDown (lo hi : ℤ) : (rangeDown hi lo).Nodup := by
  refine List.Nodup.map ?_ List.nodup_range
  intro a b h; simpa using h

theorem toFinset_range (lo hi : ℤ) : (range lo hi).toFinset = Finset.Ico lo hi := by
  ext k; simp [mem_range]

theorem sum_range {M : Type*} [AddCommMonoid M] (f : ℤ → M) (lo hi : ℤ) :
    ((range lo hi).map f).sum = ∑ k ∈ Finset.Ico lo hi, f k := by
  rw [← toFinset_range, List.sum_toFinset f (nodup_range lo hi)]

end Mpsci.py

namespace Mpsci.py

/-- `l[i]` for a list or range: negative indices count from the end; IndexError out of range. -/
def item {α : Type} (l : List α) (i : ℤ) : M α :=
  match l[(if i < 0 then i + l.length else i).toNat]? with
  | some v => if i < -l.length then .error .indexError else .ok v
  | none => .error .indexError

theorem item_nat {α : Type} {l : List α} {i : ℕ} (h : i < l.length) : item l i = .ok l[i] := by
  have h2 : ¬ ((i:ℤ) < -(l.length:ℤ)) := by omega
  have h3 : ¬ ((i:ℤ) < 0) := by omega
  simp only [item, if_neg h3, Int.toNat_natCast, List.getElem?_eq_getElem h, if_neg h2]

theorem item_map_range {α : Type} (f : ℤ → α) {lo hi k : ℤ} (h1 : lo ≤ k) (h2 : k < hi) :
    item ((range lo hi).map f) (k - lo) = .ok (f k) := by
  obtain ⟨i, e⟩ := Int.eq_ofNat_of_zero_le (show 0 ≤ k - lo by omega)
  have hl : i < ((range lo hi).map f).length := by simp [range]; omega
  rw [e, item_nat hl]
  simp [range]
  congr 1; omega

theorem item_range {lo hi k : ℤ} (h1 : lo ≤ k) (h2 : k < hi) : item (range lo hi) (k - lo) = .ok k := by
  have := item_map_range id h1 h2
  rwa [List.map_id] at this

theorem item_range_last {lo hi : ℤ} (h : lo < hi) : item (range lo hi) (-1) = .ok (hi - 1) := by
  have hl : (range lo hi).length = (hi - lo).toNat := by simp [range]
  have h2 : ¬ ((-1:ℤ) < -(((hi - lo).toNat : ℕ) : ℤ)) := by omega
  have h3 : (-1 + (((hi - lo).toNat : ℕ) : ℤ)).toNat = (hi - lo).toNat - 1 := by omega
  have h4 : (hi - lo).toNat - 1 < (hi - lo).toNat := by omega
  simp only [item, hl, show (-1:ℤ) < 0 by omega, if_true, h3]
  rw [List.getElem?_eq_getElem (by rw [hl]; exact h4)]
  simp only [if_neg h2]
  simp [range]; omega

/-- `l[:i]` -/
def sliceTo {α : Type} (l : List α) (i : ℤ) : List α :=
  l.take (if i < 0 then i + l.length else i).toNat
/-- `l[i:]` -/
def sliceFrom {α : Type} (l : List α) (i : ℤ) : List α :=
  l.drop (if i < 0 then i + l.length else i).toNat

theorem sliceTo_map_range {α : Type} (f : ℤ → α) {lo hi k : ℤ} (h1 : lo ≤ k) (h2 : k ≤ hi) :
    sliceTo ((range lo hi).map f) (k - lo) = (range lo k).map f := by
  rw [sliceTo, if_neg (by omega), ← List.map_take]
  congr 1
  rw [range, range, ← List.map_take, List.take_range]
  congr 2; omega

theorem sliceFrom_map_range {α : Type} (f : ℤ → α) {lo hi k : ℤ} (h1 : lo ≤ k) :
    sliceFrom ((range lo hi).map f) (k - lo) = (range k hi).map f := by
  rw [sliceFrom, if_neg (by omega), ← List.map_drop]
  congr 1
  apply List.ext_getElem
  · simp [range]; omega
  · intro i h3 h4
    simp [range]; omega

end Mpsci.py
