import Verif.Lemmas.Fun.Marcum

namespace Mpsci.fun_

open Classical Num Filter Topology Set

/-- C62 For `m > 0` and `a ≥ 0`, `cmarcumq(m, a, ·)` is a strictly increasing continuous distribution function on `[0, ∞)` with the stated density,
`marcumq` is its complement, and all shortcuts agree with the integral. -/
theorem marcumq_spec (m a : ℝ) (hm : 0 < m) (ha : 0 ≤ a) :
    Spec.IsTailPair (Spec.marcumDensity m a) (marcumq (fin m) (fin a)) (cmarcumq (fin m) (fin a)) :=
  ⟨mq.F m a, (mq.isDist hm a).cont.continuousOn, mq.F_strict hm a, mq.F_nonpos le_rfl, (mq.isDist hm a).lim1, fun b hb =>
    ⟨mq.cmarcumq_eval hm ha hb, mq.marcumq_eval hm ha hb, mq.F_eq_int hm ha hb⟩⟩

/-- C62 The series in the density converges. -/
theorem marcum_series (m a x : ℝ) (ha : 0 < a) (hx : 0 < x) :
    Summable fun k : ℕ => (a * x / 2) ^ (2 * (k:ℝ) + (m - 1)) / (k.factorial * Real.Gamma (k + m)) := by
  have h := ((Mpsci.hasSum_w m ((a * x / 2) ^ 2)).mul_left ((a * x / 2) ^ (m - 1))).summable
  refine h.congr fun k => ?_
  have h0 : 0 < a * x / 2 := by positivity
  rw [Real.rpow_add h0, ← Nat.cast_two, ← Nat.cast_mul, Real.rpow_natCast, pow_mul]; ring

example : ∃ r : ℝ, 0 < r ∧ r < 1 ∧ marcumq (fin (1 / 2)) 2 3 = .ok (fin (1 - r)) ∧ cmarcumq (fin (1 / 2)) 2 3 = .ok (fin r) := by
  obtain ⟨F, _, hs, h0, hl, h⟩ := marcumq_spec (1 / 2) 2 (by norm_num) (by norm_num)
  obtain ⟨h1, h2, _⟩ := h 3 (by norm_num)
  refine ⟨F 3, ?_, ?_, h2, h1⟩
  · rw [← h0]; exact hs (by simp) (by simp) (by norm_num)
  · have h3 : F 3 < F 4 := hs (by simp) (by simp) (by norm_num)
    refine h3.trans_le (ge_of_tendsto hl ?_)
    filter_upwards [eventually_ge_atTop 4] with x hx
    exact hs.monotoneOn (by simp) (by simp only [mem_Ici]; linarith) hx

end Mpsci.fun_
