import Mathlib.Analysis.SpecialFunctions.Pow.Real
import Mathlib.Analysis.SpecialFunctions.Log.Basic

/-! Elementary inequalities used for modes and likelihoods. -/

namespace Mpsci

/-- `c log u - u` is largest at `u = c`. -/
theorem mul_log_sub_le {c u : ℝ} (hc : 0 < c) (hu : 0 < u) :
    c * Real.log u - u ≤ c * Real.log c - c := by
  have h := Real.log_le_sub_one_of_pos (div_pos hu hc)
  rw [Real.log_div hu.ne' hc.ne'] at h
  have h2 := mul_le_mul_of_nonneg_left h hc.le
  have h3 : c * (u / c - 1) = u - c := by field_simp
  rw [h3] at h2
  linarith

/-- `u^c e^{-u}` is largest at `u = c`. -/
theorem rpow_mul_exp_neg_le {c u : ℝ} (hc : 0 ≤ c) (hu : 0 < u) :
    u ^ c * Real.exp (-u) ≤ c ^ c * Real.exp (-c) := by
  rcases hc.eq_or_lt with rfl | hc
  · simp [hu.le]
  · rw [Real.rpow_def_of_pos hu, Real.rpow_def_of_pos hc, ← Real.exp_add, ← Real.exp_add]
    apply Real.exp_le_exp.2
    have := mul_log_sub_le hc hu
    linarith

/-- `a log p + b log (1 - p)` is largest at `p = a / (a + b)`. -/
theorem mul_log_add_le {a b p : ℝ} (ha : 0 < a) (hb : 0 < b) (h0 : 0 < p) (h1 : p < 1) :
    a * Real.log p + b * Real.log (1 - p) ≤
      a * Real.log (a / (a + b)) + b * Real.log (b / (a + b)) := by
  have hp : 0 < 1 - p := by linarith
  have hs : 0 < a + b := by linarith
  have ha' : 0 < a / (a + b) := by positivity
  have hb' : 0 < b / (a + b) := by positivity
  have e1 := Real.log_le_sub_one_of_pos (div_pos h0 ha')
  have e2 := Real.log_le_sub_one_of_pos (div_pos hp hb')
  rw [Real.log_div h0.ne' ha'.ne'] at e1
  rw [Real.log_div hp.ne' hb'.ne'] at e2
  have h1 := mul_le_mul_of_nonneg_left e1 ha.le
  have h2 := mul_le_mul_of_nonneg_left e2 hb.le
  have h3 : a * (p / (a / (a + b)) - 1) + b * ((1 - p) / (b / (a + b)) - 1) = 0 := by
    field_simp; ring
  nlinarith

/-- `p^a (1-p)^b` is largest at `p = a / (a + b)`. -/
theorem rpow_mul_rpow_le {a b p : ℝ} (ha : 0 < a) (hb : 0 < b) (h0 : 0 < p) (h1 : p < 1) :
    p ^ a * (1 - p) ^ b ≤ (a / (a + b)) ^ a * (b / (a + b)) ^ b := by
  have hp : 0 < 1 - p := by linarith
  have hs : 0 < a + b := by linarith
  have ha' : 0 < a / (a + b) := by positivity
  have hb' : 0 < b / (a + b) := by positivity
  rw [Real.rpow_def_of_pos h0, Real.rpow_def_of_pos hp, Real.rpow_def_of_pos ha',
    Real.rpow_def_of_pos hb', ← Real.exp_add, ← Real.exp_add]
  apply Real.exp_le_exp.2
  have := mul_log_add_le ha hb h0 h1
  linarith

/-- `u^a / (1+u)^(a+b)` is largest at `u = a / b`. -/
theorem rpow_div_one_add_le {a b u : ℝ} (ha : 0 < a) (hb : 0 < b) (hu : 0 < u) :
    u ^ a / (1 + u) ^ (a + b) ≤ (a / b) ^ a / (1 + a / b) ^ (a + b) := by
  have key : ∀ u : ℝ, 0 < u →
      u ^ a / (1 + u) ^ (a + b) = (u / (1 + u)) ^ a * (1 - u / (1 + u)) ^ b := by
    intro u hu
    have h1 : 0 < 1 + u := by linarith
    have h2 : 1 - u / (1 + u) = 1 / (1 + u) := by field_simp; ring
    rw [h2, Real.div_rpow hu.le h1.le, Real.div_rpow zero_le_one h1.le, Real.one_rpow,
      Real.rpow_add h1, div_mul_div_comm, mul_one]
  have hab : 0 < a / b := by positivity
  have h1 : 0 < 1 + u := by linarith
  rw [key u hu, key _ hab]
  have e : a / b / (1 + a / b) = a / (a + b) := by field_simp; ring
  have e2 : 1 - a / (a + b) = b / (a + b) := by field_simp; ring
  rw [e, e2]
  exact rpow_mul_rpow_le ha hb (by positivity) (by rw [div_lt_one h1]; linarith)

end Mpsci
