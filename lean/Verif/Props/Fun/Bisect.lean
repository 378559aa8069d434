import Verif.Lemmas.Fun.Bisect
import Verif.Spec.Bisect
import Mathlib.Analysis.SpecialFunctions.Integrals.Basic

/-!
# C46: the bisection root finder
-/

namespace Mpsci.fn

open Classical Num Set Spec

variable {G : Set ℝ} {rnd : ℝ → ℝ} {func : Num → M Num} {g : ℝ → ℝ} {x0 x1 : ℝ}

theorem found_root (hG : Rounding G rnd) (hN : Nearest G rnd) {r : ℝ}
    (h : Found G rnd g x0 x1 r) : RootFound G g x0 x1 r := by
  obtain ⟨h1, h2, h3⟩ := h
  refine ⟨h1, h2, h3.imp id ?_⟩
  rintro ⟨a, b, ha, hb, ha', hb', hs, hm, hr⟩
  have e : rnd (a + b) = 2 * r := by unfold mid at hm; linarith
  have key : ∀ s, a + b = r + s → ∀ t ∈ G, t ∈ uIcc r s → t = r ∨ t = s := by
    intro s hs t ht h
    have := hN (a + b) (2 * t) (hG.dbl _ ht)
    rw [e, hs] at this
    rw [mem_uIcc] at h
    by_contra hne
    rw [not_or] at hne
    rcases h with ⟨c1, c2⟩ | ⟨c1, c2⟩
    · have d1 := lt_of_le_of_ne c1 (Ne.symm hne.1)
      have d2 := lt_of_le_of_ne c2 hne.2
      rw [abs_of_nonpos (by linarith), ← not_lt] at this
      exact this (by rw [abs_lt]; constructor <;> linarith)
    · have d1 := lt_of_le_of_ne c1 (Ne.symm hne.2)
      have d2 := lt_of_le_of_ne c2 hne.1
      rw [abs_of_nonneg (by linarith), ← not_lt] at this
      exact this (by rw [abs_lt]; constructor <;> linarith)
  rcases hr with rfl | rfl
  · exact ⟨b, hb', ⟨ha, hb, key b rfl⟩, hs⟩
  · exact ⟨a, ha', ⟨hb, ha, key a (add_comm _ _)⟩, by rwa [mul_comm]⟩

/-- C46 `mp_bisect` ends and finds a root or a sign change between neighbouring representable
numbers, for every bracket (in either order) across which `g` changes sign, provided `g` has
constant sign near 0 (in the bracket).  `g` need not be continuous.  Missing from C46: brackets
on which `g` changes sign at 0; there the loop may run forever, see `mpBisect_never_ends`. -/
theorem mpBisect_ends_partial (hG : Rounding G rnd) (hN : Nearest G rnd) (h0 : x0 ∈ G)
    (h1 : x1 ∈ G)
    (hf : ∀ t ∈ uIcc x0 x1, func (fin t) = .ok (fin (g t))) (hs : g x0 * g x1 ≤ 0)
    (hz : ∃ ε > 0, ∀ s ∈ uIcc x0 x1, ∀ t ∈ uIcc x0 x1, |s| < ε → |t| < ε → 0 < g s * g t) :
    ∃ N r, RootFound G g x0 x1 r ∧ ∀ n ≥ N, mpBisect rnd n func (fin x0) (fin x1) = .ok (fin r) := by
  by_cases e0 : g x0 = 0
  · exact ⟨0, x0, ⟨h0, left_mem_uIcc, .inl e0⟩, fun n _ => by
      simp [mpBisect, hf x0 left_mem_uIcc, e0]⟩
  by_cases e1 : g x1 = 0
  · exact ⟨0, x1, ⟨h1, right_mem_uIcc, .inl e1⟩, fun n _ => by
      simp [mpBisect, hf x0 left_mem_uIcc, hf x1 right_mem_uIcc, e0, e1]⟩
  have hs' : g x0 * g x1 < 0 := lt_of_le_of_ne hs (mul_ne_zero e0 e1)
  obtain ⟨ε, hε, hz⟩ := hz
  obtain ⟨k, hk⟩ : ∃ k : ℕ, |x0 - x1| * (3 / 4) ^ k < ε := by
    rcases (abs_nonneg (x0 - x1)).eq_or_lt with h | h
    · exact ⟨0, by rw [← h]; simpa using hε⟩
    · obtain ⟨k, hk⟩ := exists_pow_lt_of_lt_one (show 0 < ε / |x0 - x1| by positivity)
        (show (3 / 4 : ℝ) < 1 by norm_num)
      exact ⟨k, by rwa [lt_div_iff₀ h, mul_comm] at hk⟩
  obtain ⟨N, r, h2, h3⟩ := ends_near_zero hG k h0 h1 hf hs' hz hk
  refine ⟨N, r, found_root hG hN h2, fun n hn => ?_⟩
  have e : ¬ ((0 < g x0 ∧ 0 < g x1) ∨ (g x0 < 0 ∧ g x1 < 0)) := by
    rintro (⟨a, b⟩ | ⟨a, b⟩)
    · exact absurd (mul_pos a b) hs'.not_gt
    · exact absurd (mul_pos_of_neg_of_neg a b) hs'.not_gt
  simp only [mpBisect, hf x0 left_mem_uIcc, hf x1 right_mem_uIcc, ok_bind, zero_def, fin_eq, e0,
    e1, if_false, gt_iff, fin_lt, e]
  exact h3 n hn

/-- C46 a bracket whose ends have the same sign is rejected. -/
theorem mpBisect_rejects (hf0 : func (fin x0) = .ok (fin (g x0)))
    (hf1 : func (fin x1) = .ok (fin (g x1))) (hs : 0 < g x0 * g x1) (n : ℕ) :
    mpBisect rnd n func (fin x0) (fin x1) = .error .valueError := by
  have e0 : g x0 ≠ 0 := by rintro h; simp [h] at hs
  have e1 : g x1 ≠ 0 := by rintro h; simp [h] at hs
  have e : (0 < g x0 ∧ 0 < g x1) ∨ (g x0 < 0 ∧ g x1 < 0) := by
    rcases lt_or_gt_of_ne e0 with h | h
    · exact .inr ⟨h, by by_contra h'; exact absurd (mul_nonpos_of_nonpos_of_nonneg h.le (not_lt.1 h')) hs.not_ge⟩
    · exact .inl ⟨h, by by_contra h'; exact absurd (mul_nonpos_of_nonneg_of_nonpos h.le (not_lt.1 h')) hs.not_ge⟩
  simp only [mpBisect, hf0, hf1, ok_bind, zero_def, fin_eq, e0,
    e1, if_false, gt_iff, fin_lt, e, if_true]
  rfl

/-- C46 fails: `mp_bisect(lambda t: t, -1, 2)` never returns.  The brackets are
`[-1, 2], [-1, 1/2], [-1/4, 1/2], ...`: all numbers are representable, the midpoint is never 0,
and mpmath's numbers have no smallest positive one. -/
theorem mpBisect_never_ends {R : ℝ → ℤ} (hR : IntRounding R) {p : ℕ} (hp : 2 ≤ p) (fuel : ℕ) :
    mpBisect (roundTo R p) fuel (fun t => .ok t) (fin (-1)) (fin 2) = .error .diverges := by
  have hG := roundTo_rounding hR hp
  have key : ∀ n : ℕ, ∀ e : ℤ,
      bisectLoop (roundTo R p) (fun t => .ok t) n (fin (-(2 : ℝ) ^ e)) (fin (2 * (2 : ℝ) ^ e))
        (fin (-(2 : ℝ) ^ e)) = .error .diverges ∧
      bisectLoop (roundTo R p) (fun t => .ok t) n (fin (-(2 : ℝ) ^ e)) (fin ((2 : ℝ) ^ (e - 1)))
        (fin (-(2 : ℝ) ^ e)) = .error .diverges := by
    intro n
    induction n with
    | zero => intro e; exact ⟨rfl, rfl⟩
    | succ n ih =>
      intro e
      have hpos := two_zpow_pos e
      have hG1 : ∀ f : ℤ, (2 : ℝ) ^ f ∈ floats p := fun f =>
        ⟨1, f, by rw [abs_one]; exact one_lt_pow₀ (by norm_num) (by omega), by simp⟩
      have hG2 : ∀ f : ℤ, -(2 : ℝ) ^ f ∈ floats p := fun f =>
        ⟨-1, f, by rw [abs_neg, abs_one]; exact one_lt_pow₀ (by norm_num) (by omega), by simp⟩
      have hG3 : 2 * (2 : ℝ) ^ e ∈ floats p := hG.dbl _ (hG1 e)
      have e1 : (2 : ℝ) ^ (e - 1) = 2 ^ e / 2 := by rw [zpow_sub_one₀ two_ne_zero]; ring
      constructor
      · have hm : mid (roundTo R p) (-(2 : ℝ) ^ e) (2 * 2 ^ e) = 2 ^ (e - 1) := by
          unfold mid
          rw [show -(2 : ℝ) ^ e + 2 * 2 ^ e = 2 ^ e by ring, hG.fix _ (hG1 e), e1]
        have := bisectLoop_step (g := fun t => t) (func := fun t => .ok t) hG (hG2 e) hG3
          (fun t _ => rfl) (by nlinarith) n
        simp only [hm] at this
        rw [this, if_neg, if_neg]
        · exact (ih e).2
        · rw [e1]; nlinarith
        · rw [e1]; push Not; exact ⟨by positivity, by linarith, by linarith⟩
      · have hm : mid (roundTo R p) (-(2 : ℝ) ^ e) (2 ^ (e - 1)) = -2 ^ (e - 1 - 1) := by
          unfold mid
          rw [e1, show -(2 : ℝ) ^ e + 2 ^ e / 2 = -(2 ^ e / 2) by ring, ← e1,
            hG.fix _ (hG2 (e - 1)), zpow_sub_one₀ two_ne_zero (e - 1)]; ring
        have := bisectLoop_step (g := fun t => t) (func := fun t => .ok t) hG (hG2 e) (hG1 (e - 1))
          (fun t _ => rfl) (by simp only [e1]; nlinarith) n
        have e2 : (2 : ℝ) ^ (e - 1 - 1) = 2 ^ e / 4 := by
          rw [zpow_sub_one₀ two_ne_zero, e1]; ring
        simp only [hm] at this
        rw [this, if_neg, if_pos]
        · have := (ih (e - 1 - 1)).1
          rwa [show 2 * (2 : ℝ) ^ (e - 1 - 1) = 2 ^ (e - 1) by rw [e2, e1]; ring] at this
        · rw [e2]; nlinarith
        · rw [e2, e1]; push Not; refine ⟨?_, ?_, ?_⟩ <;> linarith
  have := (key fuel 0).1
  simp only [zpow_zero, mul_one] at this
  simp only [mpBisect, ok_bind, zero_def, fin_eq, gt_iff, fin_lt]
  norm_num
  simpa using this

/-- The hypotheses can be met: mpmath's numbers with 53 bits, `t² - 2` on the bracket `[2, 1]`. -/
example : ∃ N r, RootFound (floats 53) (fun t => t ^ 2 - 2) 2 1 r ∧ ∀ n ≥ N,
    mpBisect (roundTo halfEven 53) n (fun t => .ok (t * t - 2)) (fin 2) (fin 1) = .ok (fin r) := by
  refine mpBisect_ends_partial (roundTo_rounding halfEven_rounding (by norm_num))
    (roundTo_nearest 53) ⟨2, 0, by norm_num, by norm_num⟩ ⟨1, 0, by norm_num, by norm_num⟩
    (fun t _ => by simp [sq]) (by norm_num) ⟨1, one_pos, fun s hs t _ h _ => ?_⟩
  rw [mem_uIcc] at hs
  have := le_abs_self s
  rcases hs with hs | hs <;> linarith

/-- The regularized incomplete beta function `I_x(a, b)`. -/
noncomputable def regBeta (a b x : ℝ) : ℝ := betaInt a b 0 x / betaFn a b

theorem regBeta_continuous {a b : ℝ} (ha : 0 < a) (hb : 0 < b) :
    ContinuousOn (regBeta a b) (Icc 0 1) := by
  have h := intervalIntegral.continuousOn_primitive_interval
    (a := 0) (b := 1) (f := fun t : ℝ => t ^ (a - 1) * (1 - t) ^ (b - 1)) (μ := MeasureTheory.volume)
    (by
      have := (intervalIntegrable_iff_integrableOn_Icc_of_le zero_le_one).1 (betaIntegrable ha hb)
      rwa [uIcc_of_le zero_le_one])
  rw [uIcc_of_le zero_le_one] at h
  exact h.div_const _

/-- C46 `betaincinv(a, b, y, method=('bisect', [xa, xb]))` and its complement end for all `a, b > 0`, `0 < y < 1` and
representable brackets within `[0, 1]`, at any precision of at least two bits, and return the exact inverse or a
representable number next to it (the function has the other sign at the neighbour). -/
theorem betaincinv_bracket {p : ℕ} (hp : 2 ≤ p) {a b y xa xb : ℝ} (ha : 0 < a) (hb : 0 < b)
    (hy0 : 0 < y) (hy1 : y < 1) (complement : Bool) (hxa : xa ∈ floats p) (hxb : xb ∈ floats p)
    (hxa' : xa ∈ Icc (0:ℝ) 1) (hxb' : xb ∈ Icc (0:ℝ) 1)
    (hs : ((if complement then 1 - regBeta a b xa else regBeta a b xa) - y) *
      ((if complement then 1 - regBeta a b xb else regBeta a b xb) - y) ≤ 0) :
    ∃ N r, RootFound (floats p)
        (fun t => (if complement then 1 - regBeta a b t else regBeta a b t) - y) xa xb r ∧
      ∀ n ≥ N, betaincinvBisect (roundTo halfEven p) n (fin a) (fin b) (fin y) (fin xa) (fin xb) complement =
        .ok (fin r) := by
  set g : ℝ → ℝ := fun t => (if complement then 1 - regBeta a b t else regBeta a b t) - y with hg
  have hbe := betaFn_pos ha hb
  have hr0 : regBeta a b 0 = 0 := by simp [regBeta, betaInt]
  have hgc : ContinuousOn g (Icc 0 1) := by
    cases complement
    · exact (regBeta_continuous ha hb).sub continuousOn_const
    · exact (continuousOn_const.sub (regBeta_continuous ha hb)).sub continuousOn_const
  have hg0 : g 0 ≠ 0 := by
    cases complement <;> simp [hg, hr0] <;> linarith
  have hsub : uIcc xa xb ⊆ Icc (0:ℝ) 1 := uIcc_subset_Icc hxa' hxb'
  have hz : ∃ ε > 0, ∀ s ∈ uIcc xa xb, ∀ t ∈ uIcc xa xb, |s| < ε → |t| < ε →
      0 < g s * g t := by
    have h1 := Metric.continuousOn_iff.1 hgc 0 ⟨le_rfl, zero_le_one⟩ |g 0| (abs_pos.2 hg0)
    obtain ⟨ε, hε, h1⟩ := h1
    refine ⟨ε, hε, fun s hs t ht hs' ht' => ?_⟩
    have h2 := h1 s (hsub hs) (by simpa using hs')
    have h3 := h1 t (hsub ht) (by simpa using ht')
    rw [Real.dist_eq, abs_lt] at h2 h3
    rcases lt_or_gt_of_ne hg0 with h | h
    · rw [abs_of_neg h] at h2 h3
      exact mul_pos_of_neg_of_neg (by linarith [h2.2]) (by linarith [h3.2])
    · rw [abs_of_pos h] at h2 h3
      exact mul_pos (by linarith [h2.1]) (by linarith [h3.1])
  set func : Num → M Num := betaincTarget (fin a) (fin b) (fin y) complement with hfunc
  have hf : ∀ t ∈ uIcc xa xb, func (fin t) = .ok (fin (g t)) := by
    intro t ht
    replace ht := hsub ht
    cases complement
    · simp [hfunc, betaincTarget, hg, mp.betaincReg_fin ha hb le_rfl zero_le_one ht.1 ht.2, regBeta]
    · have : betaInt a b t 1 = betaFn a b - betaInt a b 0 t := by
        rw [← betaInt_full ha hb, ← betaInt_add ha hb ht.1 ht.2 zero_le_one le_rfl]; ring
      simp [hfunc, betaincTarget, hg, mp.betaincReg_fin ha hb ht.1 ht.2 zero_le_one le_rfl, regBeta, this, sub_div,
        div_self hbe.ne']
  obtain ⟨N, r, h1, h2⟩ := mpBisect_ends_partial (roundTo_rounding halfEven_rounding hp)
    (roundTo_nearest p) hxa hxb hf hs hz
  refine ⟨N, r, h1, fun n hn => ?_⟩
  have := h2 n hn
  have c1 : ¬ (fin y < 0 ∨ fin y > 1) := by simp; constructor <;> linarith
  have c2 : ¬ (fin y =. 0) := by simp; linarith
  have c3 : ¬ (fin y =. 1) := by simp; linarith
  simp only [betaincinvBisect, if_neg c1, if_neg c2, if_neg c3]
  rw [← hfunc, this]
  rfl

/-- C46 `betaincinv(a, b, y, method='bisect')` and its complement end for all `a, b > 0` and
`0 < y < 1`, at any precision of at least two bits, and return the exact inverse or a
representable number next to it (the function has the other sign at the neighbour). -/
theorem betaincinv_bisect {p : ℕ} (hp : 2 ≤ p) {a b y : ℝ} (ha : 0 < a) (hb : 0 < b)
    (hy0 : 0 < y) (hy1 : y < 1) (complement : Bool) :
    ∃ N r, RootFound (floats p)
        (fun t => (if complement then 1 - regBeta a b t else regBeta a b t) - y) 0 1 r ∧
      ∀ n ≥ N, betaincinvBisect (roundTo halfEven p) n (fin a) (fin b) (fin y) 0 1 complement =
        .ok (fin r) := by
  have hr0 : regBeta a b 0 = 0 := by simp [regBeta, betaInt]
  have hr1 : regBeta a b 1 = 1 := by rw [regBeta, betaInt_full ha hb, div_self (betaFn_pos ha hb).ne']
  refine betaincinv_bracket hp ha hb hy0 hy1 complement ⟨0, 0, by simp, by simp⟩
    ⟨1, 0, by rw [abs_one]; exact one_lt_pow₀ (by norm_num) (by omega), by simp⟩ ⟨le_rfl, zero_le_one⟩ ⟨zero_le_one, le_rfl⟩ ?_
  cases complement <;> simp [hr0, hr1] <;> nlinarith

/-- C46 `betaincinv` at and beyond the ends. -/
theorem betaincinv_edges (rnd : ℝ → ℝ) (n : ℕ) (a b xa xb : Num) (c : Bool) :
    (∀ y : ℝ, y < 0 ∨ 1 < y → betaincinvBisect rnd n a b (fin y) xa xb c = .ok nan) ∧
    betaincinvBisect rnd n a b 0 xa xb c = .ok (if c then 1 else 0) ∧
    betaincinvBisect rnd n a b 1 xa xb c = .ok (if c then 0 else 1) := by
  refine ⟨fun y hy => ?_, ?_, ?_⟩
  · simp [betaincinvBisect, hy]
  · simp [betaincinvBisect]
  · simp [betaincinvBisect]

example : ∃ N r, RootFound (floats 53) (fun t => regBeta 2 3 t - 1 / 3) 0 1 r ∧ ∀ n ≥ N,
    betaincinvBisect (roundTo halfEven 53) n (fin 2) (fin 3) (fin (1 / 3)) 0 1 false =
      .ok (fin r) := by
  simpa using betaincinv_bisect (p := 53) (by norm_num) (a := 2) (b := 3) (y := 1 / 3)
    (by norm_num) (by norm_num) (by norm_num) (by norm_num) false

end Mpsci.fn
