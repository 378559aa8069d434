import Verif.Lemmas.Psi
import Verif.Lemmas.Shape

/-! The distribution of the logarithm of a gamma variate. -/

namespace Mpsci.loggammaD

open Set Filter Topology MeasureTheory Num Spec

variable {k : ℝ}

noncomputable def F (k z : ℝ) : ℝ := gammaD.P k (Real.exp z)
noncomputable def f (k z : ℝ) : ℝ := Real.exp (k * z - Real.exp z) / Real.Gamma k
noncomputable def Q (k p : ℝ) : ℝ := Real.log (gammaD.Q k p)

theorem f_pos (hk : 0 < k) (z : ℝ) : 0 < f k z := div_pos (Real.exp_pos _) (gammaD.Gpos hk)

theorem log_f (hk : 0 < k) (z : ℝ) : Real.log (f k z) = k * z - Real.exp z - Real.log (Real.Gamma k) := by
  rw [f, Real.log_div (Real.exp_pos _).ne' (gammaD.Gpos hk).ne', Real.log_exp]

theorem hasDerivAt_F (hk : 0 < k) (z : ℝ) : HasDerivAt (F k) (f k z) z := by
  refine (HasDerivAt.comp z (gammaD.hasDerivAt_P hk (Real.exp_pos z)) (Real.hasDerivAt_exp z)).congr_deriv ?_
  have e : Real.exp z ^ (k - 1) * Real.exp (-Real.exp z) * Real.exp z = Real.exp (k * z - Real.exp z) := by
    rw [← Real.exp_mul, ← Real.exp_add, ← Real.exp_add]; congr 1; ring
  rw [f, ← e, gammaD.g]; ring

theorem isDist (hk : 0 < k) : IsDist (F k) (f k) := by
  refine isDist_univ (fun x => hasDerivAt_F hk x) (fun x => (f_pos hk x).le) ?_ ?_
  · have h1 : Tendsto Real.exp atBot (𝓝[≥] 0) := tendsto_nhdsWithin_iff.2 ⟨Real.tendsto_exp_atBot, Eventually.of_forall fun x => (Real.exp_pos x).le⟩
    have h2 : Tendsto (gammaD.P k) (𝓝[≥] 0) (𝓝 (gammaD.P k 0)) := gammaD.P_cont0 hk
    rw [gammaD.P_zero] at h2
    exact h2.comp h1
  · exact (gammaD.P_atTop hk).comp Real.tendsto_exp_atTop

theorem F_strictMono (hk : 0 < k) : StrictMono (F k) := fun x y h =>
  gammaD.P_strictMonoOn hk (Real.exp_pos x).le (Real.exp_pos y).le (Real.exp_lt_exp.2 h)
theorem F_mem (hk : 0 < k) (z : ℝ) : 0 < F k z ∧ F k z < 1 :=
  ⟨gammaD.P_pos hk (Real.exp_pos z), gammaD.P_lt_one hk (Real.exp_pos z).le⟩
theorem F_Q (hk : 0 < k) (p : ℝ) (h0 : 0 < p) (h1 : p < 1) : F k (Q k p) = p := by
  rw [F, Q, Real.exp_log (gammaD.Q_pos p), gammaD.P_Q hk h0 h1]

/-! ### Moments -/

theorem Yn (hk : 0 < k) (n : ℕ) : Int01 (fun p => Q k p ^ n) (LG n k / Real.Gamma k) := gammaD.E_log hk n

theorem Y1 (hk : 0 < k) : Int01 (Q k) (psi k) := gammaD.E_log1 hk

noncomputable def psi2 (k : ℝ) : ℝ :=
  LG 3 k / Real.Gamma k - 3 * (LG 2 k / Real.Gamma k) * (LG 1 k / Real.Gamma k) + 2 * (LG 1 k / Real.Gamma k) ^ 3
noncomputable def psi3 (k : ℝ) : ℝ :=
  LG 4 k / Real.Gamma k - 4 * (LG 3 k / Real.Gamma k) * (LG 1 k / Real.Gamma k) - 3 * (LG 2 k / Real.Gamma k) ^ 2 +
    12 * (LG 2 k / Real.Gamma k) * (LG 1 k / Real.Gamma k) ^ 2 - 6 * (LG 1 k / Real.Gamma k) ^ 4

theorem hasDerivAt_ratio (hk : 0 < k) (n : ℕ) : HasDerivAt (fun x => LG n x / Real.Gamma x)
    (LG (n + 1) k / Real.Gamma k - LG n k / Real.Gamma k * (LG 1 k / Real.Gamma k)) k := by
  have hg := gammaD.Gpos hk
  refine ((LG_deriv n hk).div (LG_deriv 0 hk) (by rw [LG_zero hk]; exact hg.ne')).congr_of_eventuallyEq
    (f₁ := fun x => LG n x / Real.Gamma x) ?_ |>.congr_deriv ?_
  · filter_upwards [lt_mem_nhds hk] with t ht
    show _ = LG n t / LG 0 t
    rw [LG_zero ht]
  · simp only [LG_zero hk, zero_add]
    field_simp

theorem hasDerivAt_psi1 (hk : 0 < k) : HasDerivAt psi1 (psi2 k) k := by
  have h := (hasDerivAt_ratio hk 2).sub ((hasDerivAt_ratio hk 1).pow 2)
  refine h.congr_deriv ?_
  simp only [psi2]; push_cast; ring

theorem hasDerivAt_psi2 (hk : 0 < k) : HasDerivAt psi2 (psi3 k) k := by
  have h := ((hasDerivAt_ratio hk 3).sub (((hasDerivAt_ratio hk 2).const_mul 3).mul (hasDerivAt_ratio hk 1))).add
    (((hasDerivAt_ratio hk 1).pow 3).const_mul 2)
  refine h.congr_deriv ?_
  simp only [psi3]; push_cast; ring

theorem iteratedDeriv_psi2 (hk : 0 < k) : iteratedDeriv 2 psi k = psi2 k := by
  rw [iteratedDeriv_succ]
  refine (((hasDerivAt_psi1 hk).congr_of_eventuallyEq ?_)).deriv
  filter_upwards [lt_mem_nhds hk] with t ht using iteratedDeriv_psi ht

theorem iteratedDeriv_psi3 (hk : 0 < k) : iteratedDeriv 3 psi k = psi3 k := by
  rw [iteratedDeriv_succ]
  refine (((hasDerivAt_psi2 hk).congr_of_eventuallyEq ?_)).deriv
  filter_upwards [lt_mem_nhds hk] with t ht using iteratedDeriv_psi2 ht

/-! ### The mode -/

theorem f_le (hk : 0 < k) (z : ℝ) : f k z ≤ f k (Real.log k) := by
  refine div_le_div_of_nonneg_right (Real.exp_le_exp.2 ?_) (gammaD.Gpos hk).le
  rw [Real.exp_log hk]
  have h := Real.add_one_le_exp (z - Real.log k)
  rw [Real.exp_sub, Real.exp_log hk, le_div_iff₀ hk] at h
  nlinarith

end Mpsci.loggammaD
