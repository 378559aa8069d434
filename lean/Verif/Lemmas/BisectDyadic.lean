import Verif.Props.Fun.Bisect
import Verif.Lemmas.Search

/-! The bracket search on `[0, 1]` gives dyadic numbers. -/

namespace Mpsci.common

open Classical Num Set Spec

variable {func : Num → M Num} {g : ℝ → ℝ} {p d : ℝ}

/-- The multiples of `2⁻ⁱ` in `[0, 1]`. -/
def dyadic (i : ℕ) (x : ℝ) : Prop := ∃ k : ℕ, k ≤ 2 ^ i ∧ x = k / 2 ^ i

theorem dyadic.mem {i : ℕ} {x : ℝ} (h : dyadic i x) : x ∈ Icc (0:ℝ) 1 := by
  obtain ⟨k, hk, rfl⟩ := h
  refine ⟨by positivity, ?_⟩
  rw [div_le_one (by positivity)]
  exact_mod_cast hk

theorem dyadic.succ {i : ℕ} {x : ℝ} (h : dyadic i x) : dyadic (i + 1) x := by
  obtain ⟨k, hk, rfl⟩ := h
  refine ⟨2 * k, by rw [pow_succ]; omega, ?_⟩
  push_cast; rw [pow_succ]; field_simp

theorem dyadic.mono {i : ℕ} {x : ℝ} (h : dyadic i x) (n : ℕ) : dyadic (i + n) x := by
  induction n with
  | zero => exact h
  | succ n ih => exact ih.succ

theorem dyadic.mid {i : ℕ} {x y : ℝ} (hx : dyadic i x) (hy : dyadic i y) : dyadic (i + 1) ((x + y) / 2) := by
  obtain ⟨k, hk, rfl⟩ := hx
  obtain ⟨l, hl, rfl⟩ := hy
  refine ⟨k + l, by rw [pow_succ]; omega, ?_⟩
  push_cast; rw [pow_succ]; field_simp

theorem dyadic.floats {i q : ℕ} {x : ℝ} (h : dyadic i x) (hq : i + 1 ≤ q) : x ∈ floats q := by
  obtain ⟨k, hk, rfl⟩ := h
  refine ⟨k, -i, ?_, ?_⟩
  · have : (2:ℤ) ^ i < 2 ^ q := pow_lt_pow_right₀ (by norm_num) (by omega)
    rw [abs_of_nonneg (by positivity)]
    have : (k : ℤ) ≤ 2 ^ i := by exact_mod_cast hk
    linarith
  · rw [zpow_neg, zpow_natCast]; push_cast; rw [div_eq_mul_inv]

/-- The bisection steps keep a dyadic bracket of the root: `d` is the difference of the values at the ends. -/
theorem bisectSteps_dyadic (hf : ∀ t ∈ Icc (0:ℝ) 1, func (fin t) = .ok (fin (g t))) (hd : d ≠ 0) (n : ℕ) :
    ∀ i x0 x1, dyadic i x0 → dyadic i x1 → 0 < d * (p - g x0) → 0 < d * (g x1 - p) →
    ∃ lo hi, dyadic (i + n) lo ∧ dyadic (i + n) hi ∧ (lo = hi ∧ g lo = p ∨ (g lo - p) * (g hi - p) < 0) ∧
      bisectSteps func (fin p) (mp.sign (fin d)) n (fin x0) (fin x1) = .ok (fin lo, fin hi) := by
  induction n with
  | zero =>
    intro i x0 x1 h0 h1 h2 h3
    refine ⟨x0, x1, h0, h1, Or.inr ?_, rfl⟩
    have := mul_pos h2 h3
    have hd2 : 0 < d ^ 2 := by positivity
    by_contra hh
    push Not at hh
    nlinarith
  | succ n ih =>
    intro i x0 x1 h0 h1 h2 h3
    have e : (fin x0 + fin x1) /. 2 = .ok (fin ((x0 + x1) / 2)) := by
      simp only [ofNat_def, fin_add, fin_div _ (two_ne_zero)]
    have hmid := h0.mid h1
    have hm : func (fin ((x0 + x1) / 2)) = .ok (fin (g ((x0 + x1) / 2))) := hf _ hmid.mem
    rw [show i + (n + 1) = i + 1 + n by ring]
    by_cases h : g ((x0 + x1) / 2) = p
    · exact ⟨_, _, hmid.mono n, hmid.mono n, Or.inl ⟨rfl, h⟩, by
        simp only [bisectSteps, e, hm, ok_bind, fin_eq, h, if_true, pure_eq_ok]⟩
    · have key : (mp.sign (fin (p - g ((x0 + x1) / 2))) =. mp.sign (fin d)) ↔ 0 < d * (p - g ((x0 + x1) / 2)) := by
        rcases lt_or_gt_of_ne hd with hd | hd
        · rw [sign_eq_neg hd]
          exact ⟨fun h => mul_pos_of_neg_of_neg hd h, fun h => by by_contra hh; push Not at hh; nlinarith⟩
        · rw [sign_eq_pos hd, mul_pos_iff_of_pos_left hd]
      by_cases h' : mp.sign (fin (p - g ((x0 + x1) / 2))) =. mp.sign (fin d)
      · obtain ⟨lo, hi, a1, a2, a3, a4⟩ := ih (i + 1) ((x0 + x1) / 2) x1 hmid h1.succ (key.1 h') h3
        exact ⟨lo, hi, a1, a2, a3, by
          simp only [bisectSteps, e, hm, ok_bind, fin_eq, h, if_false, fin_sub, h', if_true, a4]⟩
      · have h4 : 0 < d * (g ((x0 + x1) / 2) - p) := by
          rw [key] at h'
          have : d * (p - g ((x0 + x1) / 2)) ≠ 0 := mul_ne_zero hd (sub_ne_zero.2 (Ne.symm h))
          have := (not_lt.1 h').lt_of_ne this
          linarith
        obtain ⟨lo, hi, a1, a2, a3, a4⟩ := ih (i + 1) x0 ((x0 + x1) / 2) h0.succ hmid h2 h4
        exact ⟨lo, hi, a1, a2, a3, by
          simp only [bisectSteps, e, hm, ok_bind, fin_eq, h, if_false, fin_sub, h', a4]⟩

/-- `_find_bracket` on `[0, 1]`, for a value between those at the ends. -/
theorem findBracket_unit (hf : ∀ t ∈ Icc (0:ℝ) 1, func (fin t) = .ok (fin (g t))) (h : (g 0 - p) * (g 1 - p) < 0) :
    ∃ lo hi, dyadic 8 lo ∧ dyadic 8 hi ∧ (lo = hi ∧ g lo = p ∨ (g lo - p) * (g hi - p) < 0) ∧
      ∀ fuel, findBracket fuel func (fin p) 0 1 = .ok (fin lo, fin hi) := by
  have e0 := hf 0 ⟨le_rfl, zero_le_one⟩
  have e1 := hf 1 ⟨zero_le_one, le_rfl⟩
  have n0 : p ≠ g 0 := fun e => by simp [e] at h
  have n1 : p ≠ g 1 := fun e => by simp [e] at h
  have hd : g 1 - g 0 ≠ 0 := fun e => by
    have : g 1 = g 0 := by linarith
    rw [this] at h; nlinarith [mul_self_nonneg (g 0 - p)]
  obtain ⟨lo, hi, a1, a2, a3, a4⟩ := bisectSteps_dyadic (p := p) hf hd 8 0 0 1 ⟨0, by simp, by simp⟩ ⟨1, by simp, by simp⟩
    (by nlinarith [mul_self_nonneg (g 0 - p), mul_self_pos.2 (sub_ne_zero.2 n0)])
    (by nlinarith [mul_self_nonneg (g 1 - p), mul_self_pos.2 (sub_ne_zero.2 n1)])
  refine ⟨lo, hi, by simpa using a1, by simpa using a2, a3, fun fuel => ?_⟩
  simp only [findBracket, zero_def, one_def, e0, e1, ok_bind, fin_eq, n0, n1, if_false, fin_sub, startBracket, fin_eq_ninf, fin_eq_pinf,
    false_and, pure_eq_ok, Option.getD_none, a4]

end Mpsci.common
