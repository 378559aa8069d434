import Verif.Lemmas.Moments
import Mathlib.MeasureTheory.Constructions.BorelSpace.Order
import Mathlib.MeasureTheory.Measure.Lebesgue.Integral
import Mathlib.MeasureTheory.Function.SpecialFunctions.Basic
import Mathlib.Analysis.SpecialFunctions.Integrals.Basic

/-! Expectations through the quantile function: if `F` is a distribution function with density `f` and
`Q` is a right inverse of it on `(0, 1)`, then `∫ h f` is the integral of `h ∘ Q` over `(0, 1)`. -/

namespace Mpsci

open Classical Num MeasureTheory Set Spec ENNReal

variable {F f Q h : ℝ → ℝ}

theorem quantile_strictMono (hd : IsDist F f) (hQ : ∀ p, 0 < p → p < 1 → F (Q p) = p) :
    StrictMonoOn Q (Ioo 0 1) := by
  intro p hp q hq hpq
  by_contra hlt
  have := hd.mono (not_lt.1 hlt)
  rw [hQ p hp.1 hp.2, hQ q hq.1 hq.2] at this
  exact absurd hpq (not_lt.2 this)

theorem map_quantile (hd : IsDist F f) (hQ : ∀ p, 0 < p → p < 1 → F (Q p) = p) :
    Measure.map Q (volume.restrict (Ioo 0 1)) =
      volume.withDensity (fun x => ENNReal.ofReal (f x)) := by
  have hm : AEMeasurable Q (volume.restrict (Ioo (0:ℝ) 1)) :=
    aemeasurable_restrict_of_monotoneOn measurableSet_Ioo (quantile_strictMono hd hQ).monotoneOn
  have : IsFiniteMeasure (volume.restrict (Ioo (0:ℝ) 1)) := ⟨by simp⟩
  have : IsFiniteMeasure (Measure.map Q (volume.restrict (Ioo (0:ℝ) 1))) :=
    Measure.isFiniteMeasure_map _ _
  refine Measure.ext_of_Iic _ _ fun x => ?_
  rw [Measure.map_apply_of_aemeasurable hm measurableSet_Iic, withDensity_apply _ measurableSet_Iic,
    ← ofReal_integral_eq_lintegral_ofReal hd.integrable.integrableOn
      (Filter.Eventually.of_forall fun x => hd.f_nonneg x), hd.integral_Iic,
    Measure.restrict_apply' measurableSet_Ioo]
  have e : (Q ⁻¹' Iic x ∩ Ioo 0 1 : Set ℝ) =ᵐ[volume] Ioc 0 (F x) := by
    have h1 : ∀ᵐ p : ℝ, p ≠ F x ∧ p ≠ 1 := by
      have := (measure_singleton (μ := volume) (F x))
      have := (measure_singleton (μ := volume) (1:ℝ))
      rw [Filter.eventually_and]
      constructor <;> simp [ae_iff, measure_singleton]
    filter_upwards [h1] with p hp
    refine propext ⟨fun ⟨h1, h2⟩ => ⟨h2.1, ?_⟩, fun h2 => ?_⟩
    · rw [← hQ p h2.1 h2.2]; exact hd.mono h1
    · have h3 : p < 1 := lt_of_le_of_ne (h2.2.trans (hd.le_one x)) hp.2
      refine ⟨?_, h2.1, h3⟩
      by_contra hlt
      have := hd.mono (not_le.1 hlt).le
      rw [hQ p h2.1 h3] at this
      exact hp.1 (le_antisymm h2.2 this)
  rw [measure_congr e]; simp

theorem IsDist.expect (hd : IsDist F f) (hQ : ∀ p, 0 < p → p < 1 → F (Q p) = p)
    (hm : AEStronglyMeasurable h volume) :
    (IntegrableOn (fun p => h (Q p)) (Ioo 0 1) ↔ Integrable (fun x => h x * f x)) ∧
    ∫ p in Ioo (0:ℝ) 1, h (Q p) = ∫ x, h x * f x := by
  have hq : AEMeasurable Q (volume.restrict (Ioo (0:ℝ) 1)) :=
    aemeasurable_restrict_of_monotoneOn measurableSet_Ioo (quantile_strictMono hd hQ).monotoneOn
  have e := map_quantile hd hQ
  have hm' : AEStronglyMeasurable h (Measure.map Q (volume.restrict (Ioo (0:ℝ) 1))) := by
    rw [e]; exact hm.mono_ac (withDensity_absolutelyContinuous _ _)
  have hf : AEMeasurable (fun x => ENNReal.ofReal (f x)) volume :=
    hd.integrable.aemeasurable.ennreal_ofReal
  have hlt : ∀ᵐ x : ℝ, ENNReal.ofReal (f x) < ∞ := Filter.Eventually.of_forall fun x => ofReal_lt_top
  have e2 : (fun x => (ENNReal.ofReal (f x)).toReal • h x) = fun x => h x * f x := by
    funext x; rw [toReal_ofReal (hd.f_nonneg x), smul_eq_mul, mul_comm]
  constructor
  · have := integrable_map_measure hm' hq
    rw [e, integrable_withDensity_iff_integrable_smul₀' hf hlt, e2] at this
    exact this.symm
  · have := integral_map hq hm'
    rw [e, integral_withDensity_eq_integral_toReal_smul₀ hf hlt, e2] at this
    exact this.symm

/-- Mean and variance through the quantile function. -/
theorem HasMV.of_quantile {m v : ℝ} (hd : IsDist F f) (hQ : ∀ p, 0 < p → p < 1 → F (Q p) = p)
    (i1 : IntegrableOn Q (Ioo 0 1)) (h1 : ∫ p in Ioo (0:ℝ) 1, Q p = m)
    (i2 : IntegrableOn (fun p => Q p ^ 2) (Ioo 0 1))
    (h2 : ∫ p in Ioo (0:ℝ) 1, Q p ^ 2 = v + m ^ 2) : HasMV f m v := by
  obtain ⟨a1, b1⟩ := hd.expect hQ (h := fun x => x) aestronglyMeasurable_id
  obtain ⟨a2, b2⟩ := hd.expect hQ (h := fun x => x ^ 2) (by fun_prop)
  exact ⟨hd.integrable, hd.integral_one, a1.1 i1, b1 ▸ h1, a2.1 i2, b2 ▸ h2⟩

theorem HasM.of_quantile {m : ℝ} (hd : IsDist F f) (hQ : ∀ p, 0 < p → p < 1 → F (Q p) = p)
    (i1 : IntegrableOn Q (Ioo 0 1)) (h1 : ∫ p in Ioo (0:ℝ) 1, Q p = m) : HasM f m := by
  obtain ⟨a1, b1⟩ := hd.expect hQ (h := fun x => x) aestronglyMeasurable_id
  exact ⟨hd.integrable, hd.integral_one, a1.1 i1, b1 ▸ h1⟩

/-- `f` has differential entropy `e`. -/
structure HasEnt (f : ℝ → ℝ) (e : ℝ) : Prop where
  int0 : Integrable f
  one : ∫ x, f x = 1
  int : Integrable (fun x => f x * Real.log (f x))
  ent : -∫ x, f x * Real.log (f x) = e

theorem HasEnt.of_quantile {e : ℝ} (hd : IsDist F f) (hQ : ∀ p, 0 < p → p < 1 → F (Q p) = p)
    (i1 : IntegrableOn (fun p => -Real.log (f (Q p))) (Ioo 0 1))
    (h1 : ∫ p in Ioo (0:ℝ) 1, -Real.log (f (Q p)) = e) : HasEnt f e := by
  have hm : AEMeasurable (fun x => Real.log (f x)) volume :=
    Real.measurable_log.comp_aemeasurable hd.integrable.aemeasurable
  obtain ⟨a1, b1⟩ := hd.expect hQ (h := fun x => -Real.log (f x)) hm.neg.aestronglyMeasurable
  have e1 : (fun x => -Real.log (f x) * f x) = fun x => -(f x * Real.log (f x)) := by
    funext x; ring
  rw [e1] at a1 b1
  refine ⟨hd.integrable, hd.integral_one, by simpa using (a1.1 i1).neg, ?_⟩
  rw [← integral_neg, ← b1, h1]

theorem HasEnt.isEntropy {e : ℝ} (h : HasEnt f e) {E : Set ℝ} {pdf : Num → M Num} {r : M Num}
    (hE : E.Finite) (hf : RealFnOff E pdf f) (hr : r = .ok (fin e)) : IsEntropy E pdf r :=
  ⟨hE, f, e, hf, hr, h.int, h.ent⟩

/-- Scaling by `s` adds `log s`. -/
theorem HasEnt.affine {e : ℝ} (h : HasEnt f e) (loc : ℝ) {s : ℝ} (hs : 0 < s) (h0 : ∀ x, 0 ≤ f x) :
    HasEnt (fun x => f ((x - loc) / s) / s) (e + Real.log s) := by
  have e1 : (fun x => f ((x - loc) / s) / s * Real.log (f ((x - loc) / s) / s)) =
      fun x => (fun z => f z * Real.log (f z) - Real.log s * f z) ((x - loc) / s) / s := by
    funext x
    rcases (h0 ((x - loc) / s)).eq_or_lt with h1 | h1
    · simp [← h1]
    · rw [Real.log_div h1.ne' hs.ne']; ring
  have i1 : Integrable fun z => f z * Real.log (f z) - Real.log s * f z :=
    h.int.sub (h.int0.const_mul _)
  refine ⟨integrable_affine h.int0 loc hs, by rw [integral_affine f loc hs, h.one], ?_, ?_⟩
  · rw [e1]; exact integrable_affine i1 loc hs
  · rw [e1, integral_affine (fun z => f z * Real.log (f z) - Real.log s * f z) loc hs,
      integral_sub h.int (h.int0.const_mul _), integral_const_mul, h.one, ← h.ent]; ring

theorem HasEnt.scale {e : ℝ} (h : HasEnt f e) {s : ℝ} (hs : 0 < s) (h0 : ∀ x, 0 ≤ f x) :
    HasEnt (fun x => f (x / s) / s) (e + Real.log s) := by
  simpa using h.affine 0 hs h0

/-! ### Integrals over `(0, 1)` -/

/-- `g` is integrable over `(0, 1)` with integral `v`. -/
def Int01 (g : ℝ → ℝ) (v : ℝ) : Prop := IntegrableOn g (Ioo 0 1) ∧ ∫ p in Ioo (0:ℝ) 1, g p = v

theorem Int01.congr {g g' : ℝ → ℝ} {v : ℝ} (h : Int01 g v) (e : ∀ p, 0 < p → p < 1 → g' p = g p) :
    Int01 g' v :=
  ⟨h.1.congr_fun (fun p hp => (e p hp.1 hp.2).symm) measurableSet_Ioo, by
    rw [← h.2]; exact setIntegral_congr_fun measurableSet_Ioo fun p hp => e p hp.1 hp.2⟩

theorem Int01.const (c : ℝ) : Int01 (fun _ => c) c := by
  constructor <;> simp [IntegrableOn]

theorem Int01.add {g g' : ℝ → ℝ} {v v' : ℝ} (h : Int01 g v) (h' : Int01 g' v') :
    Int01 (fun p => g p + g' p) (v + v') :=
  ⟨h.1.add h'.1, by rw [integral_add h.1 h'.1, h.2, h'.2]⟩

theorem Int01.mul {g : ℝ → ℝ} {v : ℝ} (h : Int01 g v) (c : ℝ) : Int01 (fun p => c * g p) (c * v) :=
  ⟨h.1.const_mul c, by rw [integral_const_mul, h.2]⟩

theorem Int01.sub {g g' : ℝ → ℝ} {v v' : ℝ} (h : Int01 g v) (h' : Int01 g' v') :
    Int01 (fun p => g p - g' p) (v - v') :=
  ⟨h.1.sub h'.1, by rw [integral_sub h.1 h'.1, h.2, h'.2]⟩

theorem Int01.neg {g : ℝ → ℝ} {v : ℝ} (h : Int01 g v) : Int01 (fun p => -g p) (-v) :=
  ⟨h.1.neg, by rw [integral_neg, h.2]⟩

theorem Int01.reflect {g : ℝ → ℝ} {v : ℝ} (h : Int01 g v) : Int01 (fun p => g (1 - p)) v := by
  have hp : MeasurePreserving (fun p : ℝ => 1 - p) volume volume := by
    exact Measure.measurePreserving_sub_left volume (1:ℝ)
  have e : (fun p : ℝ => 1 - p) ⁻¹' Ioo 0 1 = Ioo 0 1 := by
    ext p; simp [and_comm]
  have emb : MeasurableEmbedding (fun p : ℝ => 1 - p) := (Homeomorph.subLeft (1:ℝ)).measurableEmbedding
  constructor
  · have := (hp.integrableOn_comp_preimage emb (f := g) (s := Ioo 0 1)).2 h.1
    rw [e] at this; exact this
  · have := hp.setIntegral_preimage_emb emb g (Ioo 0 1)
    rw [e] at this; rw [this, h.2]

theorem int01_rpow {a : ℝ} (ha : -1 < a) : Int01 (fun p => p ^ a) (1 / (a + 1)) := by
  have h := intervalIntegral.intervalIntegrable_rpow' (a := 0) (b := 1) ha
  rw [intervalIntegrable_iff_integrableOn_Ioo_of_le zero_le_one] at h
  refine ⟨h, ?_⟩
  rw [← integral_Ioc_eq_integral_Ioo, ← intervalIntegral.integral_of_le zero_le_one,
    integral_rpow (Or.inl ha)]
  have : a + 1 ≠ 0 := by linarith
  simp [Real.zero_rpow this]

theorem HasMV.of_int01 {m v w : ℝ} (hd : IsDist F f) (hQ : ∀ p, 0 < p → p < 1 → F (Q p) = p)
    (h1 : Int01 Q m) (h2 : Int01 (fun p => Q p ^ 2) w) (hw : w = v + m ^ 2) : HasMV f m v :=
  HasMV.of_quantile hd hQ h1.1 h1.2 h2.1 (h2.2.trans hw)

theorem HasM.of_int01 {m : ℝ} (hd : IsDist F f) (hQ : ∀ p, 0 < p → p < 1 → F (Q p) = p)
    (h1 : Int01 Q m) : HasM f m := HasM.of_quantile hd hQ h1.1 h1.2

theorem HasEnt.of_int01 {e : ℝ} (hd : IsDist F f) (hQ : ∀ p, 0 < p → p < 1 → F (Q p) = p)
    (h1 : Int01 (fun p => -Real.log (f (Q p))) e) : HasEnt f e := HasEnt.of_quantile hd hQ h1.1 h1.2

/-! ### Moments that do not exist -/

theorem ae_eq_of_off {E : Set ℝ} {pdf : Num → M Num} {g : ℝ → ℝ} (hE : E.Finite)
    (h1 : RealFnOff E pdf f) (h2 : RealFnOff E pdf g) : f =ᵐ[volume] g := by
  have : ∀ᵐ x : ℝ, x ∉ E := measure_eq_zero_iff_ae_notMem.1 (hE.measure_zero volume)
  filter_upwards [this] with x hx
  have := (h1 x hx).symm.trans (h2 x hx)
  injection this with h; injection h

theorem not_isMean_of {E : Set ℝ} {pdf : Num → M Num} (hf : RealFnOff E pdf f)
    (hd : IsDist F f) (hQ : ∀ p, 0 < p → p < 1 → F (Q p) = p) (hn : ¬ IntegrableOn Q (Ioo 0 1)) :
    ¬ ∃ r, IsMean E pdf r := by
  rintro ⟨r, hE, g, m, hg, _, hi, _⟩
  refine hn ((hd.expect hQ (h := fun x => x) aestronglyMeasurable_id).1.2 (hi.congr ?_))
  filter_upwards [ae_eq_of_off hE hg hf] with x hx
  rw [hx]

theorem not_isVar_of {E : Set ℝ} {pdf : Num → M Num} (hf : RealFnOff E pdf f)
    (hd : IsDist F f) (hQ : ∀ p, 0 < p → p < 1 → F (Q p) = p) (hn : ¬ IntegrableOn (fun p => Q p ^ 2) (Ioo 0 1)) :
    ¬ ∃ r, IsVar E pdf r := by
  rintro ⟨r, hE, g, m, v, hg, _, i1, _, i2, _⟩
  have hfg := ae_eq_of_off hE hg hf
  have i3 : Integrable (fun x => x ^ 2 * f x) := by
    have i0 : Integrable f := hd.integrable
    refine (((i2.add (i1.const_mul (2 * m))).sub (i0.const_mul (m ^ 2)))).congr ?_
    filter_upwards [hfg] with x hx
    simp only [Pi.add_apply, Pi.sub_apply, hx]; ring
  exact hn ((hd.expect hQ (h := fun x => x ^ 2) (by fun_prop)).1.2 i3)

/-- Integrability on the unit interval of an affine image. -/
theorem not_integrableOn_affine {g : ℝ → ℝ} {a b : ℝ} (hb : b ≠ 0) (h : ¬ IntegrableOn g (Ioo 0 1)) :
    ¬ IntegrableOn (fun p => a + b * g p) (Ioo 0 1) := fun hi => h <| by
  have i0 : IntegrableOn (fun _ : ℝ => a) (Ioo (0:ℝ) 1) := (Int01.const a).1
  have := (hi.sub i0).const_mul b⁻¹
  refine this.congr (Filter.Eventually.of_forall fun p => ?_)
  simp; field_simp

theorem integrableOn_reflect {g : ℝ → ℝ} (h : IntegrableOn (fun p => g (1 - p)) (Ioo 0 1)) :
    IntegrableOn g (Ioo 0 1) := by
  have h := (show Int01 (fun p => g (1 - p)) _ from ⟨h, rfl⟩).reflect.1
  simpa using h

theorem not_integrableOn_rpow {a : ℝ} (ha : a ≤ -1) : ¬ IntegrableOn (fun p : ℝ => p ^ a) (Ioo 0 1) := fun h =>
  absurd ((intervalIntegral.integrableOn_Ioo_rpow_iff one_pos).1 h) ha.not_gt

end Mpsci
