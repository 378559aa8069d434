import Mathlib.Data.Int.Log
import Mathlib.Data.Real.Archimedean
import Mathlib.Data.Set.Finite.Basic
import Mathlib.Data.Set.Finite.Lattice
import Mathlib.Data.Finite.Prod
import Mathlib.Tactic.Positivity
import Mathlib.Tactic.Linarith
import Mathlib.Data.Int.Interval
import Mathlib.Order.Interval.Finset.Basic
import Mathlib.Order.Interval.Set.Basic
import Mathlib.Algebra.Order.Floor.Ring

/-!
# Binary floating-point numbers of mpmath

Only the bisection routine depends on rounding for its behaviour (it stops when the midpoint of
the bracket is rounded to one of its ends), so only there numbers are rounded.  mpmath's numbers
with `p` bits of precision are `m * 2**e` with `|m| < 2**p` and *any* integer exponent `e`
(mpmath has no underflow).
-/

namespace Mpsci

/-- What the bisection uses about the representable numbers `G` and the rounding `rnd`. -/
structure Rounding (G : Set ℝ) (rnd : ℝ → ℝ) : Prop where
  mem : ∀ x, rnd x ∈ G
  fix : ∀ x ∈ G, rnd x = x
  mono : Monotone rnd
  half : ∀ x ∈ G, x / 2 ∈ G
  dbl : ∀ x ∈ G, 2 * x ∈ G
  rel : ∀ x, |rnd x - x| ≤ |x| / 2
  finite : ∀ ε B : ℝ, 0 < ε → {x ∈ G | ε ≤ |x| ∧ |x| ≤ B}.Finite

/-- The numbers representable with `p` bits. -/
def floats (p : ℕ) : Set ℝ := {x | ∃ m e : ℤ, |m| < 2 ^ p ∧ x = m * (2 : ℝ) ^ e}

/-- A way of rounding reals to integers. -/
structure IntRounding (R : ℝ → ℤ) : Prop where
  mono : Monotone R
  fix : ∀ n : ℤ, R n = n
  near : ∀ x, |(R x : ℝ) - x| ≤ 1

/-- Rounding to the nearest integer, ties to even (mpmath's default). -/
noncomputable def halfEven (x : ℝ) : ℤ :=
  if Int.fract x < 1 / 2 then ⌊x⌋
  else if Int.fract x = 1 / 2 ∧ Even ⌊x⌋ then ⌊x⌋ else ⌊x⌋ + 1

theorem halfEven_rounding : IntRounding halfEven := by
  have lo : ∀ x, ⌊x⌋ ≤ halfEven x := by intro x; unfold halfEven; split_ifs <;> omega
  have hi : ∀ x, halfEven x ≤ ⌊x⌋ + 1 := by intro x; unfold halfEven; split_ifs <;> omega
  refine ⟨?_, ?_, ?_⟩
  · intro x y h
    rcases (Int.floor_mono h).eq_or_lt with h1 | h1
    · have h2 : Int.fract x ≤ Int.fract y := by unfold Int.fract; rw [h1]; linarith
      by_cases a : Int.fract x < 1 / 2
      · rw [halfEven, if_pos a, h1]; exact lo y
      have c : ¬ Int.fract y < 1 / 2 := fun c => a (h2.trans_lt c)
      by_cases b : Int.fract x = 1 / 2 ∧ Even ⌊x⌋
      · rw [halfEven, if_neg a, if_pos b, h1]; exact lo y
      have d : ¬ (Int.fract y = 1 / 2 ∧ Even ⌊y⌋) := fun d =>
        b ⟨le_antisymm (d.1 ▸ h2) (not_lt.1 a), h1 ▸ d.2⟩
      rw [halfEven, halfEven, if_neg a, if_neg b, if_neg c, if_neg d, h1]
    · exact (hi x).trans (h1.trans_le (lo y))
  · intro n; simp [halfEven]
  · intro x
    have h1 := Int.floor_le x
    have h2 := Int.lt_floor_add_one x
    have h3 : (⌊x⌋ : ℝ) ≤ halfEven x := by exact_mod_cast lo x
    have h4 : (halfEven x : ℝ) ≤ ⌊x⌋ + 1 := by exact_mod_cast hi x
    rw [abs_le]; constructor <;> linarith

/-- Truncation to an integer (of a nonnegative number). -/
theorem floor_rounding : IntRounding (Int.floor : ℝ → ℤ) :=
  ⟨Int.floor_mono, fun n => Int.floor_intCast n, fun x => by
    have h1 := Int.floor_le x
    have h2 := Int.lt_floor_add_one x
    rw [abs_le]; constructor <;> linarith⟩

/-- Exponent of the last bit of a `p`-bit number of the size of `x`. -/
noncomputable def lastBit (p : ℕ) (x : ℝ) : ℤ := Int.log 2 x - (p - 1)

/-- Rounding of a positive number to `p` bits. -/
noncomputable def roundPos (R : ℝ → ℤ) (p : ℕ) (x : ℝ) : ℝ :=
  R (x / 2 ^ lastBit p x) * 2 ^ lastBit p x

/-- Rounding to `p` bits with the integer rounding `R` applied to the significand. -/
noncomputable def roundTo (R : ℝ → ℤ) (p : ℕ) (x : ℝ) : ℝ :=
  if 0 < x then roundPos R p x else if x < 0 then -roundPos R p (-x) else 0

section
variable {R : ℝ → ℤ} (hR : IntRounding R) {p : ℕ} (hp : 2 ≤ p)

theorem two_zpow_pos (e : ℤ) : (0 : ℝ) < 2 ^ e := zpow_pos (by norm_num) e

theorem sig_bounds {x : ℝ} (hx : 0 < x) :
    (2 : ℝ) ^ (p - 1 : ℤ) ≤ x / 2 ^ lastBit p x ∧ x / 2 ^ lastBit p x < (2 : ℝ) ^ (p : ℤ) := by
  have h1 : (2 : ℝ) ^ Int.log 2 x ≤ x := by
    simpa using Int.zpow_log_le_self (R := ℝ) (b := 2) (by norm_num) hx
  have h2 : x < (2 : ℝ) ^ (Int.log 2 x + 1) := by
    simpa using Int.lt_zpow_succ_log_self (R := ℝ) (b := 2) (by norm_num) x
  rw [le_div_iff₀ (two_zpow_pos _), div_lt_iff₀ (two_zpow_pos _), ← zpow_add₀ two_ne_zero,
    ← zpow_add₀ two_ne_zero]
  have e1 : (p - 1 : ℤ) + lastBit p x = Int.log 2 x := by unfold lastBit; ring
  have e2 : (p : ℤ) + lastBit p x = Int.log 2 x + 1 := by unfold lastBit; ring
  rw [e1, e2]; exact ⟨h1, h2⟩

include hR hp

theorem R_bounds {x : ℝ} (hx : 0 < x) :
    (2 : ℤ) ^ (p - 1) ≤ R (x / 2 ^ lastBit p x) ∧ R (x / 2 ^ lastBit p x) ≤ (2 : ℤ) ^ p := by
  obtain ⟨h1, h2⟩ := sig_bounds (p := p) hx
  have e : (2 : ℝ) ^ (p - 1 : ℤ) = ((2 ^ (p - 1) : ℤ) : ℝ) := by
    push_cast
    rw [show (p - 1 : ℤ) = ((p - 1 : ℕ) : ℤ) by omega, zpow_natCast]
  constructor
  · rw [e] at h1
    simpa only [hR.fix] using hR.mono h1
  · have := hR.mono h2.le
    rwa [show (2 : ℝ) ^ (p : ℤ) = ((2 ^ p : ℤ) : ℝ) by push_cast; rw [zpow_natCast], hR.fix] at this

theorem roundPos_bounds {x : ℝ} (hx : 0 < x) :
    (2 : ℝ) ^ Int.log 2 x ≤ roundPos R p x ∧ roundPos R p x ≤ (2 : ℝ) ^ (Int.log 2 x + 1) := by
  obtain ⟨h1, h2⟩ := R_bounds hR hp hx
  have h1' : (2 : ℝ) ^ (p - 1 : ℤ) ≤ R (x / 2 ^ lastBit p x) := by
    rw [show (p - 1 : ℤ) = ((p - 1 : ℕ) : ℤ) by omega, zpow_natCast]; exact_mod_cast h1
  have h2' : (R (x / 2 ^ lastBit p x) : ℝ) ≤ (2 : ℝ) ^ (p : ℤ) := by
    rw [zpow_natCast]; exact_mod_cast h2
  have e1 : Int.log 2 x = (p - 1 : ℤ) + lastBit p x := by unfold lastBit; ring
  have e2 : Int.log 2 x + 1 = (p : ℤ) + lastBit p x := by unfold lastBit; ring
  rw [e2, e1, zpow_add₀ two_ne_zero, zpow_add₀ two_ne_zero]
  exact ⟨mul_le_mul_of_nonneg_right h1' (two_zpow_pos _).le,
    mul_le_mul_of_nonneg_right h2' (two_zpow_pos _).le⟩

theorem roundPos_pos {x : ℝ} (hx : 0 < x) : 0 < roundPos R p x :=
  (two_zpow_pos _).trans_le (roundPos_bounds hR hp hx).1

theorem roundPos_mono {x y : ℝ} (hx : 0 < x) (h : x ≤ y) : roundPos R p x ≤ roundPos R p y := by
  have hy := hx.trans_le h
  rcases (Int.log_mono_right (b := 2) hx h).eq_or_lt with h1 | h1
  · have e : lastBit p x = lastBit p y := by unfold lastBit; rw [h1]
    unfold roundPos
    rw [e]
    refine mul_le_mul_of_nonneg_right ?_ (two_zpow_pos _).le
    have : x / 2 ^ lastBit p y ≤ y / 2 ^ lastBit p y :=
      div_le_div_of_nonneg_right h (two_zpow_pos _).le
    exact_mod_cast hR.mono this
  · refine (roundPos_bounds hR hp hx).2.trans (le_trans ?_ (roundPos_bounds hR hp hy).1)
    exact zpow_le_zpow_right₀ (by norm_num) (by omega)

theorem roundPos_mem {x : ℝ} (hx : 0 < x) : roundPos R p x ∈ floats p := by
  obtain ⟨h1, h2⟩ := R_bounds hR hp hx
  have h0 : (0 : ℤ) < 2 ^ (p - 1) := by positivity
  rcases h2.eq_or_lt with h3 | h3
  · refine ⟨1, p + lastBit p x, ?_, ?_⟩
    · rw [abs_one]; exact one_lt_pow₀ (by norm_num) (by omega)
    · unfold roundPos
      rw [h3, zpow_add₀ two_ne_zero]; push_cast; rw [zpow_natCast]; ring
  · exact ⟨_, lastBit p x, by rw [abs_of_pos (h0.trans_le h1)]; exact h3, rfl⟩

theorem roundPos_fix {x : ℝ} (hx : 0 < x) (h : x ∈ floats p) : roundPos R p x = x := by
  obtain ⟨m, f, hm, rfl⟩ := h
  have hm0 : 0 < (m : ℝ) := by
    rcases lt_or_ge 0 (m : ℝ) with h | h
    · exact h
    · have := mul_nonpos_of_nonpos_of_nonneg h (two_zpow_pos f).le; linarith
  have hm1 : (m : ℝ) < 2 ^ (p : ℤ) := by
    rw [zpow_natCast]; exact_mod_cast (le_abs_self m).trans_lt hm
  have hL : Int.log 2 ((m : ℝ) * 2 ^ f) < p + f := by
    rw [← Int.lt_zpow_iff_log_lt (by norm_num) hx]
    push_cast
    rw [zpow_add₀ two_ne_zero]
    exact mul_lt_mul_of_pos_right hm1 (two_zpow_pos f)
  set x := (m : ℝ) * 2 ^ f with hxd
  have he : lastBit p x ≤ f := by unfold lastBit; omega
  have e : x / 2 ^ lastBit p x = ((m * 2 ^ (f - lastBit p x).toNat : ℤ) : ℝ) := by
    rw [div_eq_iff (two_zpow_pos _).ne']
    push_cast
    rw [mul_assoc, ← zpow_natCast, Int.toNat_of_nonneg (by omega), ← zpow_add₀ two_ne_zero,
      sub_add_cancel]
  unfold roundPos
  rw [e, hR.fix, ← e, div_mul_cancel₀ _ (two_zpow_pos _).ne']

theorem roundPos_rel {x : ℝ} (hx : 0 < x) : |roundPos R p x - x| ≤ x / 2 := by
  have h1 := hR.near (x / 2 ^ lastBit p x)
  have h2 : (2 : ℝ) ≤ x / 2 ^ lastBit p x := by
    refine le_trans ?_ (sig_bounds (p := p) hx).1
    calc (2 : ℝ) = 2 ^ (1 : ℤ) := by norm_num
      _ ≤ _ := zpow_le_zpow_right₀ (by norm_num) (by omega)
  have e : roundPos R p x - x =
      (R (x / 2 ^ lastBit p x) - x / 2 ^ lastBit p x) * 2 ^ lastBit p x := by
    unfold roundPos; rw [sub_mul, div_mul_cancel₀ _ (two_zpow_pos _).ne']
  rw [le_div_iff₀ (two_zpow_pos _)] at h2
  rw [e, abs_mul, abs_of_pos (two_zpow_pos _)]
  have := mul_le_mul_of_nonneg_right h1 (two_zpow_pos (lastBit p x)).le
  linarith

/-- mpmath's numbers with `p ≥ 2` bits, rounded to nearest/even or truncated or rounded in any
other sensible way, have the properties used. -/
theorem roundTo_rounding : Rounding (floats p) (roundTo R p) := by
  have neg_mem : ∀ x ∈ floats p, -x ∈ floats p := by
    rintro x ⟨m, e, h, rfl⟩
    exact ⟨-m, e, by rwa [abs_neg], by push_cast; ring⟩
  refine ⟨fun x => ?_, fun x hx => ?_, fun x y h => ?_, ?_, ?_, fun x => ?_, fun ε B hε => ?_⟩
  · unfold roundTo
    split_ifs with h1 h2
    · exact roundPos_mem hR hp h1
    · exact neg_mem _ (roundPos_mem hR hp (by linarith))
    · exact ⟨0, 0, by simp, by simp⟩
  · unfold roundTo
    split_ifs with h1 h2
    · exact roundPos_fix hR hp h1 hx
    · rw [roundPos_fix hR hp (by linarith) (neg_mem _ hx), neg_neg]
    · linarith
  · rcases lt_trichotomy x 0 with hx | hx | hx
    · have hx' : 0 < -x := by linarith
      rw [show roundTo R p x = -roundPos R p (-x) by simp [roundTo, hx, hx.not_gt]]
      rcases lt_trichotomy y 0 with hy | hy | hy
      · rw [show roundTo R p y = -roundPos R p (-y) by simp [roundTo, hy, hy.not_gt]]
        exact neg_le_neg (roundPos_mono hR hp (by linarith) (by linarith))
      · rw [show roundTo R p y = 0 by simp [roundTo, hy]]
        linarith [roundPos_pos hR hp hx']
      · rw [show roundTo R p y = roundPos R p y by simp [roundTo, hy]]
        linarith [roundPos_pos hR hp hx', roundPos_pos hR hp hy]
    · rw [show roundTo R p x = 0 by simp [roundTo, hx]]
      rcases (hx ▸ h : 0 ≤ y).eq_or_lt with hy | hy
      · simp [roundTo, ← hy]
      · rw [show roundTo R p y = roundPos R p y by simp [roundTo, hy]]
        exact (roundPos_pos hR hp hy).le
    · have hy := hx.trans_le h
      simpa only [roundTo, hx, hy, if_true] using roundPos_mono hR hp hx h
  · rintro x ⟨m, e, h, rfl⟩
    exact ⟨m, e - 1, h, by rw [zpow_sub_one₀ two_ne_zero]; ring⟩
  · rintro x ⟨m, e, h, rfl⟩
    exact ⟨m, e + 1, h, by rw [zpow_add_one₀ two_ne_zero]; ring⟩
  · unfold roundTo
    split_ifs with h1 h2
    · rw [abs_of_pos h1]; exact roundPos_rel hR hp h1
    · have := roundPos_rel hR hp (show 0 < -x by linarith)
      rw [abs_of_neg h2, ← abs_neg]
      convert this using 2; ring
    · have : x = 0 := by linarith
      simp [this]
  · obtain ⟨k, hk⟩ := exists_nat_gt (|B| + 1)
    have hk2 : |B| < (2 : ℝ) ^ (k : ℤ) := by
      rw [zpow_natCast]
      have : (k : ℝ) < 2 ^ k := by exact_mod_cast Nat.lt_two_pow_self
      linarith
    refine Set.Finite.subset (((Set.Finite.prod (Set.finite_Icc (-2 ^ p : ℤ) (2 ^ p))
      (Set.finite_Icc (Int.log 2 ε - p) (k : ℤ)))).image
        fun q : ℤ × ℤ => (q.1 : ℝ) * 2 ^ q.2) ?_
    rintro x ⟨⟨m, e, hm, rfl⟩, h1, h2⟩
    refine ⟨(m, e), ⟨⟨(abs_lt.1 hm).1.le, (abs_lt.1 hm).2.le⟩, ?_, ?_⟩, rfl⟩
    · rw [abs_mul, abs_of_pos (two_zpow_pos e)] at h1
      have hm1 : |(m : ℝ)| < 2 ^ (p : ℤ) := by rw [zpow_natCast]; exact_mod_cast hm
      have h3 : ε < (2 : ℝ) ^ ((p : ℤ) + e) := by
        rw [zpow_add₀ two_ne_zero]
        exact h1.trans_lt (mul_lt_mul_of_pos_right hm1 (two_zpow_pos e))
      have h4 := (Int.lt_zpow_iff_log_lt (b := 2) (R := ℝ) (by norm_num) hε).1
        (by push_cast; exact h3)
      omega
    · rw [abs_mul, abs_of_pos (two_zpow_pos e)] at h1 h2
      have hm1 : (1 : ℝ) ≤ |(m : ℝ)| := by
        have : m ≠ 0 := by rintro rfl; simp at h1; linarith
        exact_mod_cast Int.one_le_abs this
      have h3 : (2 : ℝ) ^ e < 2 ^ (k : ℤ) := by
        have := le_mul_of_one_le_left (two_zpow_pos e).le hm1
        have := le_abs_self B
        linarith
      exact ((zpow_lt_zpow_iff_right₀ (by norm_num)).1 h3).le

end

/-- Numbers `± 2**k` and everything else with few bits are rounded to themselves. -/
theorem roundTo_int_mul_pow {R : ℝ → ℤ} (hR : IntRounding R) {p : ℕ} (hp : 2 ≤ p) (m e : ℤ)
    (hm : |m| < 2 ^ p) : roundTo R p (m * 2 ^ e) = m * 2 ^ e :=
  (roundTo_rounding hR hp).fix _ ⟨m, e, hm, rfl⟩

/-- `rnd` rounds to a nearest element of `G`. -/
def Nearest (G : Set ℝ) (rnd : ℝ → ℝ) : Prop := ∀ x, ∀ t ∈ G, |rnd x - x| ≤ |t - x|

theorem halfEven_nearest (x : ℝ) (n : ℤ) : |(halfEven x : ℝ) - x| ≤ |(n : ℝ) - x| := by
  have h1 := Int.floor_add_fract x
  have h2 := Int.fract_nonneg x
  have h3 := Int.fract_lt_one x
  rcases le_or_gt n ⌊x⌋ with h | h
  · have h' : (n : ℝ) ≤ ⌊x⌋ := by exact_mod_cast h
    rw [abs_of_nonpos (show (n : ℝ) - x ≤ 0 by linarith)]
    unfold halfEven
    split_ifs with a b
    · rw [abs_of_nonpos] <;> linarith
    · rw [abs_of_nonpos] <;> linarith
    · push_cast; rw [abs_of_nonneg] <;> linarith
  · have h' : (⌊x⌋ : ℝ) + 1 ≤ n := by exact_mod_cast h
    rw [abs_of_nonneg (show 0 ≤ (n : ℝ) - x by linarith)]
    unfold halfEven
    split_ifs with a b
    · rw [abs_of_nonpos] <;> linarith
    · rw [abs_of_nonpos] <;> linarith [b.1]
    · push_cast; rw [abs_of_nonneg] <;> linarith

theorem roundPos_nearest {p : ℕ} {x : ℝ} (hx : 0 < x) {t : ℝ} (ht : t ∈ floats p) :
    |roundPos halfEven p x - x| ≤ |t - x| := by
  have hpos := two_zpow_pos (lastBit p x)
  have key : ∀ n : ℤ, |roundPos halfEven p x - x| ≤ |n * 2 ^ lastBit p x - x| := by
    intro n
    have e : ∀ r : ℝ, |r * 2 ^ lastBit p x - x| = |r - x / 2 ^ lastBit p x| * 2 ^ lastBit p x := by
      intro r
      rw [← abs_of_pos hpos, ← abs_mul, abs_of_pos hpos, sub_mul, div_mul_cancel₀ _ hpos.ne']
    unfold roundPos
    rw [e, e]
    exact mul_le_mul_of_nonneg_right (halfEven_nearest _ n) hpos.le
  rcases lt_or_ge t (2 ^ Int.log 2 x) with h | h
  · have h1 : (2 : ℝ) ^ Int.log 2 x ≤ x := by
      simpa using Int.zpow_log_le_self (R := ℝ) (b := 2) (by norm_num) hx
    rcases Nat.eq_zero_or_pos p with rfl | hp
    · -- zero is the only number with no bits
      obtain ⟨m, f, hm, rfl⟩ := ht
      have : m = 0 := by simpa using hm
      subst this
      simpa using key 0
    have := key (2 ^ (p - 1))
    have e : ((2 ^ (p - 1) : ℤ) : ℝ) * 2 ^ lastBit p x = 2 ^ Int.log 2 x := by
      push_cast
      rw [← zpow_natCast, ← zpow_add₀ two_ne_zero]
      congr 1; unfold lastBit; omega
    rw [e, abs_of_nonpos (show (2 : ℝ) ^ Int.log 2 x - x ≤ 0 by linarith)] at this
    rw [abs_of_nonpos (show t - x ≤ 0 by linarith)]
    linarith
  · obtain ⟨m, f, hm, rfl⟩ := ht
    have ht0 : 0 < (m : ℝ) * 2 ^ f := (two_zpow_pos _).trans_le h
    have hm1 : (m : ℝ) < 2 ^ (p : ℤ) := by
      rw [zpow_natCast]; exact_mod_cast (le_abs_self m).trans_lt hm
    have hL : Int.log 2 x < p + f := by
      have h1 : (2 : ℝ) ^ Int.log 2 x < 2 ^ ((p : ℤ) + f) := by
        rw [zpow_add₀ two_ne_zero]
        exact h.trans_lt (mul_lt_mul_of_pos_right hm1 (two_zpow_pos f))
      exact (zpow_lt_zpow_iff_right₀ (by norm_num)).1 h1
    have he : lastBit p x ≤ f := by unfold lastBit; omega
    have e : (m : ℝ) * 2 ^ f = ((m * 2 ^ (f - lastBit p x).toNat : ℤ) : ℝ) * 2 ^ lastBit p x := by
      push_cast
      rw [mul_assoc, ← zpow_natCast, Int.toNat_of_nonneg (by omega), ← zpow_add₀ two_ne_zero,
        sub_add_cancel]
    rw [e]
    exact key _

/-- mpmath's default rounding is to nearest. -/
theorem roundTo_nearest (p : ℕ) : Nearest (floats p) (roundTo halfEven p) := by
  intro x t ht
  rcases lt_trichotomy x 0 with hx | hx | hx
  · have h1 : -t ∈ floats p := by
      obtain ⟨m, e, h, rfl⟩ := ht
      exact ⟨-m, e, by rwa [abs_neg], by push_cast; ring⟩
    have := roundPos_nearest (show 0 < -x by linarith) h1
    rw [show roundTo halfEven p x = -roundPos halfEven p (-x) by simp [roundTo, hx, hx.not_gt],
      ← abs_neg, ← abs_neg (t - x)]
    convert this using 2 <;> ring
  · simp [roundTo, hx]
  · simpa only [roundTo, hx, if_true] using roundPos_nearest hx ht

end Mpsci
