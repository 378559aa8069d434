import Verif.Props.Fun.Bisect
import Verif.Lemmas.BetaDist
import Verif.Model.Dist.F

/-!
# C74: `betaincinv` with all its methods
-/

namespace Mpsci.fn

open Classical Num Set Spec

/-- `mp.findroot(func, x0)` with a result that may be complex (`none`): a real number that is returned is a zero of `func`. -/
def SoundRealFinder (findroot : (Num → M Num) → Num → M (Option Num)) : Prop :=
  ∀ f x0 r, findroot f x0 = .ok (some r) → f r = .ok 0

variable (fr : (Num → M Num) → Num → M (Option Num)) (rnd : ℝ → ℝ) (n : ℕ)

/-- C74 At and beyond the ends the method is not looked at: even an invalid one is accepted. -/
theorem betaincinv_ends (a b : Num) (m : Method) (c : Bool) :
    (∀ y : ℝ, y < 0 ∨ 1 < y → betaincinv fr rnd n a b (fin y) m c = .ok nan) ∧
    betaincinv fr rnd n a b pinf m c = .ok nan ∧ betaincinv fr rnd n a b ninf m c = .ok nan ∧
    betaincinv fr rnd n a b 0 m c = .ok (if c then 1 else 0) ∧
    betaincinv fr rnd n a b 1 m c = .ok (if c then 0 else 1) := by
  refine ⟨fun y hy => ?_, ?_, ?_, ?_, ?_⟩
  · simp [betaincinv, hy]
  · simp [betaincinv, Num.lt]
  · simp [betaincinv, Num.lt]
  · simp [betaincinv]
  · simp [betaincinv]

theorem inner {y : ℝ} (h0 : 0 < y) (h1 : y < 1) : ¬ (fin y < 0 ∨ fin y > 1) ∧ ¬ (fin y =. 0) ∧ ¬ (fin y =. 1) := by
  refine ⟨?_, ?_, ?_⟩
  · simp; constructor <;> linarith
  · simp; linarith
  · simp; linarith

/-- C74 The method 'bisect' is the bisection of C46 on `[0, 1]`, and `('bisect', [xa, xb])` the one on `[xa, xb]`; further
entries of the tuple or the bracket are ignored. -/
theorem betaincinv_by_bisection (a b y : Num) (c : Bool) :
    betaincinv fr rnd n a b y (.name "bisect") c = betaincinvBisect rnd n a b y 0 1 c ∧
    ∀ xa xb l t, betaincinv fr rnd n a b y (.tuple (.str "bisect" :: .list (xa :: xb :: l) :: t)) c =
      betaincinvBisect rnd n a b y xa xb c := by
  constructor
  · simp [betaincinv, betaincinvBisect, methodPlan]
  · intro xa xb l t
    simp [betaincinv, betaincinvBisect, methodPlan]

/-- C74 So `betaincinv(a, b, y, method='bisect')` ends and returns the inverse, or a representable number next to it. -/
theorem betaincinv_bisect_inverse {p : ℕ} (hp : 2 ≤ p) {a b y : ℝ} (ha : 0 < a) (hb : 0 < b)
    (hy0 : 0 < y) (hy1 : y < 1) (c : Bool) :
    ∃ N r, RootFound (floats p) (fun t => (if c then 1 - regBeta a b t else regBeta a b t) - y) 0 1 r ∧
      ∀ n ≥ N, betaincinv fr (roundTo halfEven p) n (fin a) (fin b) (fin y) (.name "bisect") c = .ok (fin r) := by
  obtain ⟨N, r, h1, h2⟩ := betaincinv_bisect hp ha hb hy0 hy1 c
  exact ⟨N, r, h1, fun n hn => by rw [(betaincinv_by_bisection fr _ n _ _ _ c).1, h2 n hn]⟩

/-- C74 A method that is not one of the documented ones is rejected, for every `y` strictly between 0 and 1: ValueError for
an unknown name (also in a tuple), IndexError for a tuple without the expected entry, TypeError for a bracket that is a
number or a guess that is a list, RuntimeError for a bracket with fewer than two ends. -/
theorem betaincinv_bad_method (a b : Num) {y : ℝ} (h0 : 0 < y) (h1 : y < 1) (c : Bool) :
    (∀ s, s ≠ "bisect" → s ≠ "findroot" → betaincinv fr rnd n a b (fin y) (.name s) c = .error .valueError) ∧
    (∀ s t, s ≠ "bisect" → s ≠ "findroot" →
      betaincinv fr rnd n a b (fin y) (.tuple (.str s :: t)) c = .error .valueError) ∧
    (∀ x t, betaincinv fr rnd n a b (fin y) (.tuple (.num x :: t)) c = .error .valueError) ∧
    betaincinv fr rnd n a b (fin y) (.tuple []) c = .error .indexError ∧
    (∀ s, s = "bisect" ∨ s = "findroot" → betaincinv fr rnd n a b (fin y) (.tuple [.str s]) c = .error .indexError) ∧
    (∀ x t, betaincinv fr rnd n a b (fin y) (.tuple (.str "bisect" :: .num x :: t)) c = .error .typeError) ∧
    (∀ l t, betaincinv fr rnd n a b (fin y) (.tuple (.str "findroot" :: .list l :: t)) c = .error .typeError) ∧
    ∀ l t, l.length < 2 → betaincinv fr rnd n a b (fin y) (.tuple (.str "bisect" :: .list l :: t)) c =
      .error .runtimeError := by
  obtain ⟨c1, c2, c3⟩ := inner h0 h1
  refine ⟨fun s h h' => ?_, fun s t h h' => ?_, fun x t => ?_, ?_, ?_, fun x t => ?_, fun l t => ?_, fun l t hl => ?_⟩
  · simp only [betaincinv, if_neg c1, if_neg c2, if_neg c3, methodPlan, if_neg h, if_neg h']; rfl
  · simp only [betaincinv, if_neg c1, if_neg c2, if_neg c3, methodPlan, if_neg h, if_neg h']; rfl
  · simp only [betaincinv, if_neg c1, if_neg c2, if_neg c3, methodPlan]; rfl
  · simp only [betaincinv, if_neg c1, if_neg c2, if_neg c3, methodPlan]; rfl
  · rintro s (rfl | rfl) <;> simp only [betaincinv, if_neg c1, if_neg c2, if_neg c3, methodPlan] <;> rfl
  · simp only [betaincinv, if_neg c1, if_neg c2, if_neg c3, methodPlan, if_true]; rfl
  · simp only [betaincinv, if_neg c1, if_neg c2, if_neg c3, methodPlan, if_true]; rfl
  · match l, hl with
    | [], _ => simp only [betaincinv, if_neg c1, if_neg c2, if_neg c3, methodPlan, if_true]; rfl
    | [x], _ => simp only [betaincinv, if_neg c1, if_neg c2, if_neg c3, methodPlan, if_true]; rfl

/-- The two ways to ask for `mp.findroot`, with the initial guess. -/
def FindrootFrom (m : Method) (x0 : Num) : Prop :=
  (m = .name "findroot" ∧ x0 = fin (1 / 2)) ∨ ∃ t, m = .tuple (.str "findroot" :: .num x0 :: t)

theorem plan_findroot {m : Method} {x0 : Num} (h : FindrootFrom m x0) : methodPlan m = .ok (.findroot x0) := by
  rcases h with ⟨rfl, rfl⟩ | ⟨t, rfl⟩ <;> simp [methodPlan]

/-- C74 With `mp.findroot` from `1/2` (the default) or from a given guess: a real root that is not negative is returned as it
is; a negative or complex root and an exception of `mp.findroot` are a RuntimeError. -/
theorem betaincinv_findroot_result {m : Method} {x0 : Num} (hm : FindrootFrom m x0) (a b : Num) {y : ℝ} (h0 : 0 < y)
    (h1 : y < 1) (c : Bool) :
    (∀ r, fr (betaincTarget a b (fin y) c) x0 = .ok (some r) → ¬ r < 0 → betaincinv fr rnd n a b (fin y) m c = .ok r) ∧
    (∀ r, fr (betaincTarget a b (fin y) c) x0 = .ok (some r) → r < 0 →
      betaincinv fr rnd n a b (fin y) m c = .error .runtimeError) ∧
    (fr (betaincTarget a b (fin y) c) x0 = .ok none → betaincinv fr rnd n a b (fin y) m c = .error .runtimeError) ∧
    ∀ e, e ≠ .diverges → e ≠ .notModelled → fr (betaincTarget a b (fin y) c) x0 = .error e →
      betaincinv fr rnd n a b (fin y) m c = .error .runtimeError := by
  obtain ⟨c1, c2, c3⟩ := inner h0 h1
  refine ⟨fun r h hr => ?_, fun r h hr => ?_, fun h => ?_, fun e he he' h => ?_⟩
  · simp only [betaincinv, if_neg c1, if_neg c2, if_neg c3, plan_findroot hm, ok_bind, h, asRuntimeError, if_neg hr]; rfl
  · simp only [betaincinv, if_neg c1, if_neg c2, if_neg c3, plan_findroot hm, ok_bind, h, asRuntimeError, if_pos hr]; rfl
  · simp only [betaincinv, if_neg c1, if_neg c2, if_neg c3, plan_findroot hm, ok_bind, h, asRuntimeError]; rfl
  · simp only [betaincinv, if_neg c1, if_neg c2, if_neg c3, plan_findroot hm, ok_bind, h]
    cases e <;> first | rfl | contradiction

theorem target_eval {a b : ℝ} (ha : 0 < a) (hb : 0 < b) (y : ℝ) (c : Bool) {t : ℝ} (h0 : 0 ≤ t) (h1 : t ≤ 1) :
    betaincTarget (fin a) (fin b) (fin y) c (fin t) =
      .ok (fin ((if c then 1 - regBeta a b t else regBeta a b t) - y)) := by
  cases c
  · simp [betaincTarget, mp.betaincReg_fin ha hb le_rfl zero_le_one h0 h1, regBeta]
  · have := betaD.upper ha hb h0 h1
    simp [betaincTarget, mp.betaincReg_fin ha hb h0 h1 zero_le_one le_rfl, this, betaD.P, regBeta]

/-- C74 If `betaincinv` with `mp.findroot` returns a number `r <= 1`, then `r` is strictly between 0 and 1, is the inverse,
and is the only number in `[0, 1]` that is.  Missing: nothing makes `mp.findroot` return a root at all, and the code
checks only that the root is not negative: see `betaincinv_beyond_one`. -/
theorem betaincinv_findroot_partial (hfr : SoundRealFinder fr) {m : Method} {x0 : Num} (hm : FindrootFrom m x0)
    {a b y : ℝ} (ha : 0 < a) (hb : 0 < b) (h0 : 0 < y) (h1 : y < 1) (c : Bool) {r : ℝ} (hr : r ≤ 1)
    (h : betaincinv fr rnd n (fin a) (fin b) (fin y) m c = .ok (fin r)) :
    0 < r ∧ r < 1 ∧ (if c then 1 - regBeta a b r else regBeta a b r) = y ∧
    ∀ s, 0 ≤ s → s ≤ 1 → (if c then 1 - regBeta a b s else regBeta a b s) = y → s = r := by
  obtain ⟨e1, e2, e3, e4⟩ := betaincinv_findroot_result fr rnd n hm (fin a) (fin b) h0 h1 c
  obtain ⟨c1, c2, c3⟩ := inner h0 h1
  have key : 0 ≤ r ∧ betaincTarget (fin a) (fin b) (fin y) c (fin r) = .ok 0 := by
    rcases hf : fr (betaincTarget (fin a) (fin b) (fin y) c) x0 with e | (_ | q)
    · simp only [betaincinv, if_neg c1, if_neg c2, if_neg c3, plan_findroot hm, ok_bind, hf] at h
      cases e <;> simp [asRuntimeError] at h
    · rw [e3 hf] at h; cases h
    · by_cases hq : q < 0
      · rw [e2 q hf hq] at h; cases h
      · rw [e1 q hf hq] at h
        cases h
        exact ⟨by simpa using hq, hfr _ _ _ hf⟩
  have hev := target_eval ha hb y c key.1 hr
  rw [key.2] at hev
  have hy : (if c then 1 - regBeta a b r else regBeta a b r) = y := by
    have := Num.fin.inj (Except.ok.inj hev)
    linarith
  have hz : regBeta a b 0 = 0 := betaD.P_zero
  have ho : regBeta a b 1 = 1 := betaD.P_one ha hb
  refine ⟨lt_of_le_of_ne key.1 ?_, lt_of_le_of_ne hr ?_, hy, fun s hs hs' h => ?_⟩
  · rintro rfl; rw [hz] at hy; cases c <;> simp at hy <;> linarith
  · rintro rfl; rw [ho] at hy; cases c <;> simp at hy <;> linarith
  · refine (betaD.P_strictMonoOn ha hb).injOn ⟨hs, hs'⟩ ⟨key.1, hr⟩ (?_ : regBeta a b s = regBeta a b r)
    cases c
    · simp only [Bool.false_eq_true, if_false] at h hy; rw [h, hy]
    · simp only [if_true] at h hy; linarith

/-- There are sound finders, and with one that finds a root in `[0, 1]` whenever there is one the default method returns
the inverse. -/
theorem exists_inverting_finder : ∃ fr, SoundRealFinder fr ∧ ∀ (rnd : ℝ → ℝ) (n : ℕ) (a b y : ℝ) (c : Bool), 0 < a → 0 < b →
    0 < y → y < 1 → ∃ r, 0 < r ∧ r < 1 ∧ betaincinv fr rnd n (fin a) (fin b) (fin y) (complement := c) = .ok (fin r) ∧
      (if c then 1 - regBeta a b r else regBeta a b r) = y := by
  refine ⟨fun f _ => if h : ∃ r : ℝ, 0 ≤ r ∧ r ≤ 1 ∧ f (fin r) = .ok 0 then .ok (some (fin h.choose)) else .error .valueError,
    ?_, ?_⟩
  · intro f x0 r h
    by_cases hh : ∃ r : ℝ, 0 ≤ r ∧ r ≤ 1 ∧ f (fin r) = .ok 0
    · simp only [dif_pos hh] at h
      cases h
      exact hh.choose_spec.2.2
    · simp only [dif_neg hh] at h; cases h
  · intro rnd n a b y c ha hb h0 h1
    have hh : ∃ r : ℝ, 0 ≤ r ∧ r ≤ 1 ∧ betaincTarget (fin a) (fin b) (fin y) c (fin r) = .ok 0 := by
      cases c
      · obtain ⟨x, ⟨hx0, hx1⟩, e⟩ := betaD.exists_Q ha hb h0 h1
        refine ⟨x, hx0.le, hx1.le, ?_⟩
        rw [target_eval ha hb y false hx0.le hx1.le]
        change regBeta a b x = y at e
        simp [e]
      · obtain ⟨x, ⟨hx0, hx1⟩, e⟩ := betaD.exists_Q ha hb (p := 1 - y) (by linarith) (by linarith)
        refine ⟨x, hx0.le, hx1.le, ?_⟩
        rw [target_eval ha hb y true hx0.le hx1.le]
        change regBeta a b x = 1 - y at e
        simp [e]
    set fr : (Num → M Num) → Num → M (Option Num) := fun f _ =>
      if h : ∃ r : ℝ, 0 ≤ r ∧ r ≤ 1 ∧ f (fin r) = .ok 0 then .ok (some (fin h.choose)) else .error .valueError with hfr
    have hs : SoundRealFinder fr := by
      intro f x0 r h
      by_cases hh : ∃ r : ℝ, 0 ≤ r ∧ r ≤ 1 ∧ f (fin r) = .ok 0
      · simp only [hfr, dif_pos hh] at h
        cases h
        exact hh.choose_spec.2.2
      · simp only [hfr, dif_neg hh] at h; cases h
    have hf : fr (betaincTarget (fin a) (fin b) (fin y) c) (fin (1 / 2)) = .ok (some (fin hh.choose)) := by
      simp only [hfr, dif_pos hh]
    have hm : FindrootFrom (.name "findroot") (fin (1 / 2)) := .inl ⟨rfl, rfl⟩
    have e := (betaincinv_findroot_result fr rnd n hm (fin a) (fin b) h0 h1 c).1 _ hf
      (by simpa using hh.choose_spec.1)
    obtain ⟨p1, p2, p3, _⟩ := betaincinv_findroot_partial fr rnd n hs hm ha hb h0 h1 c hh.choose_spec.2.1 e
    exact ⟨_, p1, p2, e, p3⟩

/-- C74 fails: the root is not checked to be at most 1.  With `a = 1`, `b = 2` the regularized function is `2 t - t²` for
every real `t`, so `mp.findroot` started at `3/2` finds the root `3/2` of `2 t - t² = 3/4`, and
`betaincinv(1, 2, 0.75, method=('findroot', 1.5))` returns 1.5; the inverse is `1/2`. -/
theorem betaincinv_beyond_one
    (hfr : ∀ f x0, f x0 = .ok 0 → fr f x0 = .ok (some x0)) :
    betaincinv fr rnd n 1 2 (fin (3 / 4)) (.tuple [.str "findroot", .num (fin (3 / 2))]) = .ok (fin (3 / 2)) ∧
    regBeta 1 2 (1 / 2) = 3 / 4 := by
  have hbeta : betaFn 1 2 = 1 / 2 := by
    rw [betaFn, Real.Gamma_one, Real.Gamma_two, show (1:ℝ) + 2 = 2 + 1 by norm_num, Real.Gamma_add_one (by norm_num), Real.Gamma_two]
    norm_num
  have hint : ∀ t : ℝ, betaInt 1 2 0 t = t - t ^ 2 / 2 := by
    intro t
    have : ∀ s : ℝ, s ^ ((1:ℝ) - 1) * (1 - s) ^ ((2:ℝ) - 1) = 1 - s := by
      intro s
      rw [sub_self, Real.rpow_zero, one_mul, show (2:ℝ) - 1 = 1 by norm_num, Real.rpow_one]
    simp only [betaInt, this]
    rw [intervalIntegral.integral_sub (by simp) (by simp)]
    simp
  have hroot : betaincTarget 1 2 (fin (3 / 4)) false (fin (3 / 2)) = .ok 0 := by
    have h2 : ∃ m k : ℕ, (1:ℝ) = m ∧ (2:ℝ) = k := ⟨1, 2, by norm_num, by norm_num⟩
    simp only [betaincTarget, Bool.false_eq_true, if_false, mp.betaincReg, one_def, ofNat_def, zero_def]
    rw [if_pos ⟨by norm_num, by norm_num, Or.inr (by simpa using h2)⟩]
    simp only [ok_bind, pure_eq_ok, fin_sub]
    norm_num [hint, hbeta]
  refine ⟨?_, ?_⟩
  · exact (betaincinv_findroot_result fr rnd n (.inr ⟨[], rfl⟩) 1 2 (by norm_num) (by norm_num) false).1 _ (hfr _ _ hroot)
      (by simp; norm_num)
  · rw [regBeta, hint, hbeta]; norm_num

/-- There is a finder as in `betaincinv_beyond_one`, and it is sound. -/
example : ∃ fr, SoundRealFinder fr ∧ ∀ f x0, f x0 = .ok 0 → fr f x0 = .ok (some x0) := by
  refine ⟨fun f x0 => if f x0 = .ok 0 then .ok (some x0) else .error .valueError, fun f x0 r h => ?_, fun f x0 h => if_pos h⟩
  by_cases hh : f x0 = .ok 0
  · simp only [if_pos hh] at h
    cases h; exact hh
  · simp only [if_neg hh] at h; cases h

/-- A bisection of a function that is nan everywhere never ends: the sign of nan equals nothing, not even itself, so the
upper end is halved for ever. -/
theorem bisect_nan {p : ℕ} (hp : 2 ≤ p) {func : Num → M Num}
    (hf : ∀ t : ℝ, 0 ≤ t → t ≤ 1 → func (fin t) = .ok nan) (n : ℕ) :
    mpBisect (roundTo halfEven p) n func 0 1 = .error .diverges := by
  have hG := roundTo_rounding halfEven_rounding hp
  have hG1 : ∀ f : ℤ, (2 : ℝ) ^ f ∈ floats p := fun f =>
    ⟨1, f, by rw [abs_one]; exact one_lt_pow₀ (by norm_num) (by omega), by simp⟩
  have key : ∀ n : ℕ, ∀ k : ℕ, bisectLoop (roundTo halfEven p) func n 0 (fin ((2:ℝ) ^ (-(k:ℤ)))) nan = .error .diverges := by
    intro n
    induction n with
    | zero => intro k; rfl
    | succ n ih =>
      intro k
      have e1 : (2:ℝ) ^ (-(k:ℤ)) / 2 = 2 ^ (-((k + 1 : ℕ) : ℤ)) := by
        rw [div_eq_iff two_ne_zero, ← zpow_add_one₀ two_ne_zero]; congr 1; push_cast; ring
      have hpos := two_zpow_pos (-((k + 1 : ℕ) : ℤ))
      have hle : (2:ℝ) ^ (-((k + 1 : ℕ) : ℤ)) ≤ 1 := zpow_le_one_of_nonpos₀ (by norm_num) (by omega)
      have hne : (2:ℝ) ^ (-((k + 1 : ℕ) : ℤ)) ≠ 2 ^ (-(k:ℤ)) := by rw [← e1]; linarith [two_zpow_pos (-(k:ℤ))]
      have hk := ih (k + 1)
      simp only [zero_def] at hk
      simp only [bisectLoop, zero_def, ofNat_def, fin_add, zero_add, round_fin, hG.fix _ (hG1 _),
        fin_div _ (two_ne_zero' ℝ), ok_bind, e1, hf _ hpos.le hle, fin_eq, hpos.ne', hne, false_or, or_false]
      simpa [mp.sign, Num.eq] using hk
  have h0 := hf 0 le_rfl zero_le_one
  have h1 := hf 1 zero_le_one le_rfl
  have hk := key n 0
  simp only [zero_def, one_def, Nat.cast_zero, neg_zero, zpow_zero] at hk ⊢
  simp only [mpBisect, h0, h1, ok_bind, zero_def]
  simpa [Num.eq, Num.lt] using hk

/-- C74 fails: nan passes the checks on `y`, and `betaincinv(a, b, nan, method='bisect')` never returns. -/
theorem betaincinv_nan_never_ends {p : ℕ} (hp : 2 ≤ p) {a b : ℝ} (ha : 0 < a) (hb : 0 < b) (c : Bool) :
    betaincinv fr (roundTo halfEven p) n (fin a) (fin b) nan (.name "bisect") c = .error .diverges := by
  have hf : ∀ t : ℝ, 0 ≤ t → t ≤ 1 → betaincTarget (fin a) (fin b) nan c (fin t) = .ok nan := by
    intro t h0 h1
    cases c
    · simp [betaincTarget, mp.betaincReg_fin ha hb le_rfl zero_le_one h0 h1]
    · simp [betaincTarget, mp.betaincReg_fin ha hb h0 h1 zero_le_one le_rfl]
  have := bisect_nan hp hf n
  rw [(betaincinv_by_bisection fr _ n _ _ _ c).1]
  simp only [zero_def, one_def] at this
  simp [betaincinvBisect, Num.lt, Num.eq, this, asRuntimeError]

/-- C74 fails: nan is accepted as a probability, so `f.invcdf(nan, dfn, dfd)` and `f.invsf(nan, dfn, dfd)` never return. -/
theorem f_inverse_nan_never_ends {p : ℕ} (hp : 2 ≤ p) {dfn dfd : ℝ} (hn : 0 < dfn) (hd : 0 < dfd) :
    fdist.invcdf (roundTo halfEven p) n nan (fin dfn) (fin dfd) = .error .diverges ∧
    fdist.invsf (roundTo halfEven p) n nan (fin dfn) (fin dfd) = .error .diverges := by
  have h1 := betaincinv_nan_never_ends (fun _ _ => .ok none) n hp (half_pos hn) (half_pos hd) false
  have h2 := betaincinv_nan_never_ends (fun _ _ => .ok none) n hp (half_pos hd) (half_pos hn) false
  rw [(betaincinv_by_bisection _ _ n _ _ _ false).1] at h1 h2
  simp only [zero_def, one_def] at h1 h2
  constructor
  · simp [fdist.invcdf, fdist.validateParams, common.validateP, hn.not_ge, hd.not_ge, Num.lt, fin_div _ (two_ne_zero' ℝ), h1]
  · simp [fdist.invsf, fdist.validateParams, common.validateP, hn.not_ge, hd.not_ge, Num.lt, fin_div _ (two_ne_zero' ℝ), h2]

example : ∃ fr, SoundRealFinder fr ∧ ∃ r, 0 < r ∧ r < 1 ∧ betaincinv fr id 0 2 3 (fin (1 / 3)) = .ok (fin r) ∧
    regBeta 2 3 r = 1 / 3 := by
  obtain ⟨fr, h, hh⟩ := exists_inverting_finder
  obtain ⟨r, h1, h2, h3, h4⟩ := hh id 0 2 3 (1 / 3) false (by norm_num) (by norm_num) (by norm_num) (by norm_num)
  exact ⟨fr, h, r, h1, h2, h3, by simpa using h4⟩

end Mpsci.fn
