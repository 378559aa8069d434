import Verif.Model.Common

/-! Evaluation of the validators on finite arguments. -/

namespace Mpsci.common

open Classical Num

theorem validateLocScale_ok (loc : Num) {s : ℝ} (hs : 0 < s) :
    validateLocScale loc (fin s) = .ok (loc, fin s) := by
  simp [validateLocScale, hs]
theorem validateLocScale_bad (loc : Num) {s : ℝ} (hs : s ≤ 0) :
    validateLocScale loc (fin s) = .error .valueError := by
  simp [validateLocScale, hs]
theorem validateP_ok {p : ℝ} (h0 : 0 ≤ p) (h1 : p ≤ 1) : validateP (fin p) = .ok (fin p) := by
  simp [validateP, h0, h1]
theorem validateP_bad {p : ℝ} (h : p < 0 ∨ 1 < p) : validateP (fin p) = .error .valueError := by
  simp [validateP, h]

theorem badLow_strict {x : List ℝ} {lo : ℝ} : badLow (x.map fin) (some (fin lo)) true ↔ ∃ t ∈ x, t ≤ lo := by
  simp [badLow]
theorem badLow_weak {x : List ℝ} {lo : ℝ} : badLow (x.map fin) (some (fin lo)) false ↔ ∃ t ∈ x, t < lo := by
  simp [badLow]
theorem badHigh_strict {x : List ℝ} {hi : ℝ} : badHigh (x.map fin) (some (fin hi)) true ↔ ∃ t ∈ x, hi ≤ t := by
  simp [badHigh]
theorem badHigh_weak {x : List ℝ} {hi : ℝ} : badHigh (x.map fin) (some (fin hi)) false ↔ ∃ t ∈ x, hi < t := by
  simp [badHigh]
@[simp] theorem badLow_none (x : List Num) (b : Bool) : badLow x none b ↔ False := by cases b <;> rfl
@[simp] theorem badHigh_none (x : List Num) (b : Bool) : badHigh x none b ↔ False := by cases b <;> rfl
@[simp] theorem badHigh_pinf (x : List ℝ) (b : Bool) : badHigh (x.map fin) (some pinf) b ↔ False := by
  cases b <;> simp [badHigh]
@[simp] theorem validateXBounds_none (x : List Num) (a b : Bool) :
    validateXBounds x none none a b = .ok x := by simp [validateXBounds]
theorem validateXBounds_ok {x : List Num} {lo hi : Option Num} {a b : Bool} (h1 : ¬ badLow x lo a)
    (h2 : ¬ badHigh x hi b) : validateXBounds x lo hi a b = .ok x := by simp [validateXBounds, h1, h2]
theorem validateXBounds_low {x : List Num} {lo hi : Option Num} {a b : Bool} (h1 : badLow x lo a) :
    validateXBounds x lo hi a b = .error .valueError := by simp [validateXBounds, h1]
theorem validateXBounds_high {x : List Num} {lo hi : Option Num} {a b : Bool} (h2 : badHigh x hi b) :
    validateXBounds x lo hi a b = .error .valueError := by simp [validateXBounds, h2]

end Mpsci.common

namespace Mpsci

theorem mapM_ok {α β : Type} (l : List α) {f : α → M β} {g : α → β}
    (h : ∀ t ∈ l, f t = .ok (g t)) : l.mapM f = .ok (l.map g) := by
  induction l with
  | nil => simp
  | cons a l ih =>
    rw [List.mapM_cons, h a (by simp), ok_bind, ih fun t ht => h t (List.mem_cons_of_mem _ ht)]
    simp

end Mpsci
