import Verif.Base.Mp
import Mathlib.MeasureTheory.Integral.IntervalIntegral.Basic

/-! `mp.quad` -/

namespace Mpsci

open Classical Num MeasureTheory Set

/-- `mp.quad(f, [a, b])`, taken to be exact: the integral over `(a, b)` of the real function that `f` computes inside the interval (mpmath's rule
does not evaluate `f` at the ends of the interval, and returns 0 when they are equal).  Integrands that raise, return an infinity or are not
integrable are not modelled. -/
noncomputable def mp.quad (f : Num → M Num) : Num → Num → M Num
  | fin a, fin b => if h : ∃ F : ℝ → ℝ, (∀ t ∈ uIoo a b, f (fin t) = .ok (fin (F t))) ∧ IntegrableOn F (uIoo a b)
      then .ok (fin (∫ t in a..b, h.choose t)) else .error .notModelled
  | fin a, pinf => if h : ∃ F : ℝ → ℝ, (∀ t, a < t → f (fin t) = .ok (fin (F t))) ∧ IntegrableOn F (Ioi a)
      then .ok (fin (∫ t in Ioi a, h.choose t)) else .error .notModelled
  | ninf, fin b => if h : ∃ F : ℝ → ℝ, (∀ t, t < b → f (fin t) = .ok (fin (F t))) ∧ IntegrableOn F (Iio b)
      then .ok (fin (∫ t in Iio b, h.choose t)) else .error .notModelled
  | pinf, pinf => .ok 0
  | ninf, ninf => .ok 0
  | _, _ => .error .notModelled

theorem mp.quad_uIoo {f : Num → M Num} {a b : ℝ} {F : ℝ → ℝ} (hf : ∀ t ∈ uIoo a b, f (fin t) = .ok (fin (F t)))
    (hi : IntegrableOn F (uIoo a b)) : mp.quad f (fin a) (fin b) = .ok (fin (∫ t in a..b, F t)) := by
  have h : ∃ F : ℝ → ℝ, (∀ t ∈ uIoo a b, f (fin t) = .ok (fin (F t))) ∧ IntegrableOn F (uIoo a b) := ⟨F, hf, hi⟩
  have e : ∀ t ∈ uIoo a b, h.choose t = F t := fun t ht => by
    have := (h.choose_spec.1 t ht).symm.trans (hf t ht)
    simpa using this
  rw [mp.quad, dif_pos h]
  generalize h.choose = F' at e
  congr 2
  rcases le_total a b with hab | hab
  · rw [uIoo_of_le hab] at e
    rw [intervalIntegral.integral_of_le hab, intervalIntegral.integral_of_le hab, integral_Ioc_eq_integral_Ioo, integral_Ioc_eq_integral_Ioo]
    exact setIntegral_congr_fun measurableSet_Ioo e
  · rw [uIoo_of_ge hab] at e
    rw [intervalIntegral.integral_of_ge hab, intervalIntegral.integral_of_ge hab, integral_Ioc_eq_integral_Ioo, integral_Ioc_eq_integral_Ioo]
    exact congrArg _ (setIntegral_congr_fun measurableSet_Ioo e)

theorem mp.quad_fin {f : Num → M Num} {a b : ℝ} {F : ℝ → ℝ} (hab : a ≤ b) (hf : ∀ t, a < t → t < b → f (fin t) = .ok (fin (F t)))
    (hi : IntegrableOn F (Ioo a b)) : mp.quad f (fin a) (fin b) = .ok (fin (∫ t in Ioo a b, F t)) := by
  rw [mp.quad_uIoo (F := F) (by rw [uIoo_of_le hab]; exact fun t ht => hf t ht.1 ht.2) (by rw [uIoo_of_le hab]; exact hi),
    intervalIntegral.integral_of_le hab, integral_Ioc_eq_integral_Ioo]

theorem mp.quad_pinf {f : Num → M Num} {a : ℝ} {F : ℝ → ℝ} (hf : ∀ t, a < t → f (fin t) = .ok (fin (F t)))
    (hi : IntegrableOn F (Ioi a)) : mp.quad f (fin a) pinf = .ok (fin (∫ t in Ioi a, F t)) := by
  have h : ∃ F : ℝ → ℝ, (∀ t, a < t → f (fin t) = .ok (fin (F t))) ∧ IntegrableOn F (Ioi a) := ⟨F, hf, hi⟩
  rw [mp.quad, dif_pos h, setIntegral_congr_fun measurableSet_Ioi fun t ht => ?_]
  have := (h.choose_spec.1 t ht).symm.trans (hf t ht)
  simpa using this

theorem mp.quad_ninf {f : Num → M Num} {b : ℝ} {F : ℝ → ℝ} (hf : ∀ t, t < b → f (fin t) = .ok (fin (F t)))
    (hi : IntegrableOn F (Iio b)) : mp.quad f ninf (fin b) = .ok (fin (∫ t in Iio b, F t)) := by
  have h : ∃ F : ℝ → ℝ, (∀ t, t < b → f (fin t) = .ok (fin (F t))) ∧ IntegrableOn F (Iio b) := ⟨F, hf, hi⟩
  rw [mp.quad, dif_pos h, setIntegral_congr_fun measurableSet_Iio fun t ht => ?_]
  have := (h.choose_spec.1 t ht).symm.trans (hf t ht)
  simpa using this

end Mpsci
