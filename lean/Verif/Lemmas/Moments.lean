import Verif.Spec.Moments
import Verif.Lemmas.DistTrans
import Mathlib.MeasureTheory.Integral.IntegralEqImproper

/-! Moments of a density and how they change under an affine map. -/

namespace Mpsci

open Classical Num MeasureTheory Set Spec

/-- `f` has integral 1, mean `m` and variance `v`. -/
structure HasMV (f : ℝ → ℝ) (m v : ℝ) : Prop where
  int0 : Integrable f
  one : ∫ x, f x = 1
  int1 : Integrable (fun x => x * f x)
  mean : ∫ x, x * f x = m
  int2 : Integrable (fun x => x ^ 2 * f x)
  second : ∫ x, x ^ 2 * f x = v + m ^ 2

/-- The mean alone. -/
structure HasM (f : ℝ → ℝ) (m : ℝ) : Prop where
  int0 : Integrable f
  one : ∫ x, f x = 1
  int1 : Integrable (fun x => x * f x)
  mean : ∫ x, x * f x = m

variable {f : ℝ → ℝ} {m v : ℝ}

theorem HasMV.hasM (h : HasMV f m v) : HasM f m := ⟨h.int0, h.one, h.int1, h.mean⟩

theorem HasM.isMean (h : HasM f m) {E : Set ℝ} {pdf : Num → M Num} {r : M Num} (hE : E.Finite)
    (hf : RealFnOff E pdf f) (hr : r = .ok (fin m)) : IsMean E pdf r :=
  ⟨hE, f, m, hf, hr, h.int1, h.mean⟩

theorem HasMV.int_var (h : HasMV f m v) (c : ℝ) : Integrable (fun x => (x - c) ^ 2 * f x) := by
  have := (h.int2.sub (h.int1.const_mul (2 * c))).add (h.int0.const_mul (c ^ 2))
  refine this.congr (Filter.Eventually.of_forall fun x => ?_)
  simp; ring

theorem HasMV.var (h : HasMV f m v) : ∫ x, (x - m) ^ 2 * f x = v := by
  have e : (fun x => (x - m) ^ 2 * f x) =
      fun x => x ^ 2 * f x - 2 * m * (x * f x) + m ^ 2 * f x := by
    funext x; ring
  have i1 : Integrable (fun x => x ^ 2 * f x - 2 * m * (x * f x)) :=
    h.int2.sub (h.int1.const_mul _)
  rw [e, integral_add i1 (h.int0.const_mul _), integral_sub h.int2 (h.int1.const_mul _), integral_const_mul, integral_const_mul, h.one,
    h.mean, h.second]
  ring

theorem HasMV.isMean (h : HasMV f m v) {E : Set ℝ} {pdf : Num → M Num} {r : M Num} (hE : E.Finite)
    (hf : RealFnOff E pdf f) (hr : r = .ok (fin m)) : IsMean E pdf r := h.hasM.isMean hE hf hr

theorem HasMV.isVar (h : HasMV f m v) {E : Set ℝ} {pdf : Num → M Num} {r : M Num} (hE : E.Finite)
    (hf : RealFnOff E pdf f) (hr : r = .ok (fin v)) : IsVar E pdf r :=
  ⟨hE, f, m, v, hf, hr, h.int1, h.mean, h.int_var m, h.var⟩

theorem HasM.affine (h : HasM f m) (loc : ℝ) {s : ℝ} (hs : 0 < s) :
    HasM (fun x => f ((x - loc) / s) / s) (loc + s * m) := by
  have e : ∀ x : ℝ, x = loc + s * ((x - loc) / s) := by intro x; field_simp; ring
  have i1 : Integrable (fun x => (loc + s * x) * f x) := by
    refine ((h.int0.const_mul loc).add (h.int1.const_mul s)).congr
      (Filter.Eventually.of_forall fun x => ?_)
    simp; ring
  have e1 : (fun x => x * (f ((x - loc) / s) / s)) =
      fun x => (fun z => (loc + s * z) * f z) ((x - loc) / s) / s := by
    funext x; simp only [← e]; ring
  refine ⟨integrable_affine h.int0 loc hs, by rw [integral_affine f loc hs, h.one], ?_, ?_⟩
  · rw [e1]; exact integrable_affine i1 loc hs
  · rw [e1, integral_affine (fun z => (loc + s * z) * f z) loc hs]
    have e2 : (fun z => (loc + s * z) * f z) = fun z => loc * f z + s * (z * f z) := by
      funext z; ring
    rw [e2, integral_add (h.int0.const_mul _) (h.int1.const_mul _), integral_const_mul,
      integral_const_mul, h.one, h.mean]; ring

theorem HasMV.affine (h : HasMV f m v) (loc : ℝ) {s : ℝ} (hs : 0 < s) :
    HasMV (fun x => f ((x - loc) / s) / s) (loc + s * m) (s ^ 2 * v) := by
  have e : ∀ x : ℝ, x = loc + s * ((x - loc) / s) := by intro x; field_simp; ring
  have h1 := h.hasM.affine loc hs
  have i2 : Integrable (fun x => (loc + s * x) ^ 2 * f x) := by
    refine (((h.int0.const_mul (loc ^ 2)).add (h.int1.const_mul (2 * loc * s))).add
      (h.int2.const_mul (s ^ 2))).congr (Filter.Eventually.of_forall fun x => ?_)
    simp; ring
  have e1 : (fun x => x ^ 2 * (f ((x - loc) / s) / s)) =
      fun x => (fun z => (loc + s * z) ^ 2 * f z) ((x - loc) / s) / s := by
    funext x; simp only [← e]; ring
  refine ⟨h1.int0, h1.one, h1.int1, h1.mean, ?_, ?_⟩
  · rw [e1]; exact integrable_affine i2 loc hs
  · rw [e1, integral_affine (fun z => (loc + s * z) ^ 2 * f z) loc hs]
    have e2 : (fun z => (loc + s * z) ^ 2 * f z) =
        fun z => loc ^ 2 * f z + 2 * loc * s * (z * f z) + s ^ 2 * (z ^ 2 * f z) := by
      funext z; ring
    have i3 : Integrable (fun z => loc ^ 2 * f z + 2 * loc * s * (z * f z)) :=
      (h.int0.const_mul _).add (h.int1.const_mul _)
    rw [e2, integral_add i3 (h.int2.const_mul _), integral_add (h.int0.const_mul _) (h.int1.const_mul _), integral_const_mul,
      integral_const_mul, integral_const_mul, h.one, h.mean, h.second]; ring

theorem HasMV.scale (h : HasMV f m v) {s : ℝ} (hs : 0 < s) :
    HasMV (fun x => f (x / s) / s) (s * m) (s ^ 2 * v) := by
  simpa using h.affine 0 hs

theorem HasM.scale (h : HasM f m) {s : ℝ} (hs : 0 < s) :
    HasM (fun x => f (x / s) / s) (s * m) := by
  simpa using h.affine 0 hs

theorem HasMV.reflect (h : HasMV f m v) : HasMV (fun x => f (-x)) (-m) v where
  int0 := h.int0.comp_neg
  one := by rw [integral_neg_eq_self f volume]; exact h.one
  int1 := by
    have := h.int1.comp_neg.neg
    refine this.congr (Filter.Eventually.of_forall fun x => ?_); simp
  mean := by
    have := integral_neg_eq_self (fun x => -(x * f x)) volume
    rw [integral_neg (fun x => x * f x), h.mean] at this
    simpa using this
  int2 := by
    have := h.int2.comp_neg
    refine this.congr (Filter.Eventually.of_forall fun x => ?_); simp
  second := by
    have := integral_neg_eq_self (fun x => x ^ 2 * f x) volume
    rw [h.second] at this
    simpa using this

/-- Build `HasMV` from a density vanishing on the negative half line. -/
theorem integral_Ioi_of_zero {g : ℝ → ℝ} (h : ∀ x, x < 0 → g x = 0) :
    ∫ x, g x = ∫ x in Ioi (0:ℝ), g x := by
  rw [← integral_indicator measurableSet_Ioi]
  refine integral_congr_ae ?_
  have : ∀ᵐ x : ℝ, x ≠ 0 := by simp [ae_iff, measure_singleton]
  filter_upwards [this] with x hx
  rcases lt_or_gt_of_ne hx with h' | h'
  · simp [indicator, h x h', h'.not_gt]
  · simp [indicator, h']

theorem integrable_of_Ioi {g : ℝ → ℝ} (h : ∀ x, x < 0 → g x = 0) (hi : IntegrableOn g (Ioi 0)) :
    Integrable g := by
  rw [← integrable_indicator_iff measurableSet_Ioi] at hi
  refine hi.congr ?_
  have : ∀ᵐ x : ℝ, x ≠ 0 := by simp [ae_iff, measure_singleton]
  filter_upwards [this] with x hx
  rcases lt_or_gt_of_ne hx with h' | h'
  · simp [indicator, h x h', h'.not_gt]
  · simp [indicator, h']

/-- An even function from its positive half. -/
theorem integral_even {g : ℝ → ℝ} {v : ℝ} (he : ∀ z, g (-z) = g z) (hi : IntegrableOn g (Ioi 0))
    (hv : ∫ z in Ioi (0:ℝ), g z = v) : Integrable g ∧ ∫ z, g z = 2 * v := by
  have i1 : Integrable ((Ioi (0:ℝ)).indicator g) := (integrable_indicator_iff measurableSet_Ioi).2 hi
  have v1 : ∫ z, (Ioi (0:ℝ)).indicator g z = v := by rw [integral_indicator measurableSet_Ioi, hv]
  have e : (fun z => (Ioi (0:ℝ)).indicator g z + (Ioi (0:ℝ)).indicator g (-z)) =ᵐ[volume] g := by
    have : ∀ᵐ x : ℝ, x ≠ 0 := by simp [ae_iff, measure_singleton]
    filter_upwards [this] with z hz
    rcases lt_or_gt_of_ne hz with h | h
    · simp [indicator, h, h.not_gt, he]
    · simp [indicator, h, h.not_gt]
  refine ⟨(i1.add i1.comp_neg).congr e, ?_⟩
  rw [← integral_congr_ae e, integral_add i1 i1.comp_neg, integral_neg_eq_self _ volume, v1]; ring

/-- A nonnegative function on the positive half line, by its antiderivative. -/
theorem integral_of_antideriv {g H : ℝ → ℝ} {L : ℝ} (hz : ∀ x, x < 0 → g x = 0)
    (hc : ContinuousWithinAt H (Ici 0) 0) (hd : ∀ x, 0 < x → HasDerivAt H (g x) x)
    (hg : ∀ x, 0 < x → 0 ≤ g x) (hl : Filter.Tendsto H Filter.atTop (nhds L)) :
    Integrable g ∧ ∫ x, g x = L - H 0 := by
  have h1 := integrableOn_Ioi_deriv_of_nonneg hc (fun x hx => hd x hx) (fun x hx => hg x hx) hl
  refine ⟨integrable_of_Ioi hz h1, ?_⟩
  rw [integral_Ioi_of_zero hz]
  exact integral_Ioi_of_hasDerivAt_of_nonneg hc (fun x hx => hd x hx) (fun x hx => hg x hx) hl

/-- A function on `(a, b)` with an antiderivative, zero elsewhere. -/
theorem integral_Ioo_of_antideriv {g h H : ℝ → ℝ} {a b : ℝ} (hab : a ≤ b) (hz : ∀ x, x ∉ Ioo a b → g x = 0)
    (hg : ∀ x ∈ Ioo a b, g x = h x) (hc : Continuous h) (hd : ∀ x, HasDerivAt H (h x) x) :
    Integrable g ∧ ∫ x, g x = H b - H a := by
  have e : g = (Ioo a b).indicator h := by
    funext x
    by_cases hx : x ∈ Ioo a b
    · simp [hx, hg x hx]
    · rw [indicator_of_notMem hx, hz x hx]
  have hi : IntegrableOn h (Icc a b) := hc.continuousOn.integrableOn_compact isCompact_Icc
  rw [e]
  refine ⟨(integrable_indicator_iff measurableSet_Ioo).2 (hi.mono_set Ioo_subset_Icc_self), ?_⟩
  rw [integral_indicator measurableSet_Ioo, ← integral_Ioc_eq_integral_Ioo, ← intervalIntegral.integral_of_le hab]
  exact intervalIntegral.integral_eq_sub_of_hasDerivAt (fun x _ => hd x) (hc.intervalIntegrable a b)

end Mpsci
