import Verif.Lemmas.DirichletDist
import Mathlib.MeasureTheory.Integral.Pi
import Mathlib.Analysis.SpecialFunctions.Gaussian.GaussianIntegral
import Mathlib.Analysis.Matrix.Order
import Mathlib.MeasureTheory.Group.Integral

/-!
# Integrals of powers of `1 + q`, `q` a positive definite quadratic form

The multivariate t density is such a power. The integral of `(1 + |z|^2/v)^(-s)` comes from Euler's integral for a power and the Gaussian integral.
-/

namespace Mpsci.mvtD

open MeasureTheory Set Matrix Filter Topology

variable {p : ℕ} {v : ℝ}

theorem gauss {c : ℝ} (hc : 0 < c) : Integrable (fun z : Fin p → ℝ => Real.exp (-(c * ∑ i, z i ^ 2))) ∧
    ∫ z : Fin p → ℝ, Real.exp (-(c * ∑ i, z i ^ 2)) = (Real.pi / c) ^ ((p : ℝ) / 2) := by
  have e : (fun z : Fin p → ℝ => Real.exp (-(c * ∑ i, z i ^ 2))) = fun z => ∏ i, Real.exp (-c * z i ^ 2) := by
    funext z
    rw [← Real.exp_sum, Finset.mul_sum, ← Finset.sum_neg_distrib]
    simp
  rw [e]
  refine ⟨?_, ?_⟩
  · exact Integrable.fintype_prod (f := fun _ x => Real.exp (-c * x ^ 2)) (fun _ => integrable_exp_neg_mul_sq hc)
  · rw [integral_fintype_prod_volume_eq_pow (fun x : ℝ => Real.exp (-c * x ^ 2)), integral_gaussian, Fintype.card_fin, Real.sqrt_eq_rpow,
      ← Real.rpow_natCast, ← Real.rpow_mul (by positivity)]
    congr 1; ring

/-- `q z = |z|^2 / v` -/
noncomputable def q (v : ℝ) (z : Fin p → ℝ) : ℝ := (∑ i, z i ^ 2) / v

theorem q_nonneg (hv : 0 < v) (z : Fin p → ℝ) : 0 ≤ q v z := div_nonneg (Finset.sum_nonneg fun i _ => sq_nonneg _) hv.le

theorem q_cont : Continuous (q v : (Fin p → ℝ) → ℝ) := by unfold q; fun_prop

theorem pow_eq {s x : ℝ} (hs : 0 < s) (hx : 0 < 1 + x) : IntegrableOn (fun t => t ^ (s - 1) * Real.exp (-((1 + x) * t))) (Ioi 0) ∧
    ∫ t in Ioi (0:ℝ), t ^ (s - 1) * Real.exp (-((1 + x) * t)) = Real.Gamma s * (1 + x) ^ (-s) := by
  refine ⟨?_, ?_⟩
  · have := integrableOn_rpow_mul_exp_neg_mul_rpow (s := s - 1) (p := 1) (b := 1 + x) (by linarith) one_pos hx
    refine IntegrableOn.congr_fun this (fun t ht => ?_) measurableSet_Ioi
    simp only [Real.rpow_one, neg_mul]
  · rw [Real.integral_rpow_mul_exp_neg_mul_Ioi hs hx, one_div, Real.inv_rpow hx.le, ← Real.rpow_neg hx.le, mul_comm]

theorem lint_pow (hv : 0 < v) {s : ℝ} (hs : (p:ℝ) / 2 < s) : ∫⁻ z : Fin p → ℝ, ENNReal.ofReal (Real.Gamma s * (1 + q v z) ^ (-s)) =
    ENNReal.ofReal ((Real.pi * v) ^ ((p:ℝ) / 2) * Real.Gamma (s - p / 2)) := by
  have hp : (0:ℝ) ≤ p := p.cast_nonneg
  have hs0 : 0 < s := by linarith
  have e1 : ∀ z : Fin p → ℝ, ENNReal.ofReal (Real.Gamma s * (1 + q v z) ^ (-s)) =
      ∫⁻ t in Ioi (0:ℝ), ENNReal.ofReal (t ^ (s - 1) * Real.exp (-((1 + q v z) * t))) := by
    intro z
    obtain ⟨h1, h2⟩ := pow_eq hs0 (by linarith [q_nonneg hv z] : 0 < 1 + q v z)
    rw [← h2, ofReal_integral_eq_lintegral_ofReal h1]
    filter_upwards [self_mem_ae_restrict measurableSet_Ioi] with t ht
    exact mul_nonneg (Real.rpow_nonneg (le_of_lt ht) _) (Real.exp_pos _).le
  have hm : Measurable (fun zt : (Fin p → ℝ) × ℝ => ENNReal.ofReal (zt.2 ^ (s - 1) * Real.exp (-((1 + q v zt.1) * zt.2)))) := by
    unfold q; fun_prop
  rw [lintegral_congr e1, lintegral_lintegral_swap hm.aemeasurable]
  have e2 : ∀ t ∈ Ioi (0:ℝ), ∫⁻ z : Fin p → ℝ, ENNReal.ofReal (t ^ (s - 1) * Real.exp (-((1 + q v z) * t))) =
      ENNReal.ofReal ((Real.pi * v) ^ ((p:ℝ) / 2) * (t ^ (s - p / 2 - 1) * Real.exp (-t))) := by
    intro t ht
    have ht0 : (0:ℝ) < t := ht
    obtain ⟨h1, h2⟩ := gauss (p := p) (show 0 < t / v by positivity)
    have e3 : ∀ z : Fin p → ℝ, t ^ (s - 1) * Real.exp (-((1 + q v z) * t)) =
        t ^ (s - 1) * Real.exp (-t) * Real.exp (-(t / v * ∑ i, z i ^ 2)) := by
      intro z
      rw [mul_assoc, ← Real.exp_add, q]; congr 2; ring
    simp only [e3]
    rw [← ofReal_integral_eq_lintegral_ofReal (h1.const_mul _) (Eventually.of_forall fun z => by positivity), integral_const_mul, h2]
    congr 1
    rw [show Real.pi / (t / v) = Real.pi * v / t by field_simp, Real.div_rpow (by positivity) ht0.le, show s - p / 2 - 1 = (s - 1) - p / 2 by ring,
      Real.rpow_sub ht0 (s - 1)]
    ring
  rw [setLIntegral_congr_fun measurableSet_Ioi e2]
  have hG : IntegrableOn (fun t : ℝ => t ^ (s - p / 2 - 1) * Real.exp (-t)) (Ioi 0) :=
    IntegrableOn.congr_fun (Real.GammaIntegral_convergent (by linarith : 0 < s - p / 2)) (fun t _ => mul_comm _ _) measurableSet_Ioi
  rw [← ofReal_integral_eq_lintegral_ofReal (hG.const_mul _), integral_const_mul, Real.Gamma_eq_integral (by linarith : 0 < s - p / 2)]
  · congr 3; funext t; rw [mul_comm]
  · filter_upwards [self_mem_ae_restrict measurableSet_Ioi] with t ht
    have : (0:ℝ) < t := ht
    positivity

noncomputable def I (p : ℕ) (v s : ℝ) : ℝ := (Real.pi * v) ^ ((p:ℝ) / 2) * Real.Gamma (s - p / 2) / Real.Gamma s

theorem int_pow (hv : 0 < v) {s : ℝ} (hs : (p:ℝ) / 2 < s) : Integrable (fun z : Fin p → ℝ => (1 + q v z) ^ (-s)) ∧
    ∫ z : Fin p → ℝ, (1 + q v z) ^ (-s) = I p v s := by
  have hp : (0:ℝ) ≤ p := p.cast_nonneg
  have hG := Real.Gamma_pos_of_pos (by linarith : 0 < s)
  have hG2 := Real.Gamma_pos_of_pos (by linarith : 0 < s - p / 2)
  have hn : ∀ z : Fin p → ℝ, 0 ≤ Real.Gamma s * (1 + q v z) ^ (-s) := fun z =>
    mul_nonneg hG.le (Real.rpow_nonneg (by linarith [q_nonneg hv z]) _)
  have hm : Measurable (fun z : Fin p → ℝ => Real.Gamma s * (1 + q v z) ^ (-s)) := by unfold q; fun_prop
  have hl := lint_pow (p := p) hv hs
  have hi : Integrable (fun z : Fin p → ℝ => Real.Gamma s * (1 + q v z) ^ (-s)) :=
    ⟨hm.aestronglyMeasurable, by rw [hasFiniteIntegral_iff_ofReal (Eventually.of_forall hn), hl]; exact ENNReal.ofReal_lt_top⟩
  have hv2 : ∫ z : Fin p → ℝ, Real.Gamma s * (1 + q v z) ^ (-s) = (Real.pi * v) ^ ((p:ℝ) / 2) * Real.Gamma (s - p / 2) := by
    rw [integral_eq_lintegral_of_nonneg_ae (Eventually.of_forall hn) hm.aestronglyMeasurable, hl, ENNReal.toReal_ofReal (by positivity)]
  refine ⟨?_, ?_⟩
  · have := hi.const_mul (Real.Gamma s)⁻¹
    refine this.congr (Eventually.of_forall fun z => ?_)
    simp only [← mul_assoc, inv_mul_cancel₀ hG.ne', one_mul]
  · rw [integral_const_mul] at hv2
    rw [I, ← hv2]; field_simp

theorem I_pos (hv : 0 < v) {s : ℝ} (hs : (p:ℝ) / 2 < s) : 0 < I p v s := by
  have hp : (0:ℝ) ≤ p := p.cast_nonneg
  have hG := Real.Gamma_pos_of_pos (by linarith : 0 < s)
  have hG2 := Real.Gamma_pos_of_pos (by linarith : 0 < s - p / 2)
  rw [I]; positivity

theorem I_deriv {s : ℝ} (hs : (p:ℝ) / 2 < s) : HasDerivAt (I p v) (I p v s * (psi (s - p / 2) - psi s)) s := by
  have hp : (0:ℝ) ≤ p := p.cast_nonneg
  have d1 := (dirD.hasDerivAt_Gamma (by linarith : 0 < s - p / 2)).comp_sub_const s ((p:ℝ) / 2)
  have d2 := dirD.hasDerivAt_Gamma (by linarith : 0 < s)
  have h2 := (Real.Gamma_pos_of_pos (by linarith : 0 < s)).ne'
  refine ((d1.const_mul ((Real.pi * v) ^ ((p:ℝ) / 2))).div d2 h2).congr_deriv ?_
  rw [I]; field_simp

theorem int_log (hv : 0 < v) {s : ℝ} (hs : (p:ℝ) / 2 < s) : Integrable (fun z : Fin p → ℝ => Real.log (1 + q v z) * (1 + q v z) ^ (-s)) ∧
    ∫ z : Fin p → ℝ, Real.log (1 + q v z) * (1 + q v z) ^ (-s) = I p v s * (psi s - psi (s - p / 2)) := by
  set d := (s - p / 2) / 4 with hd
  have hd0 : 0 < d := by rw [hd]; linarith
  have hb : ∀ z : Fin p → ℝ, 1 ≤ 1 + q v z := fun z => by linarith [q_nonneg hv z]
  have key := hasDerivAt_integral_of_dominated_loc_of_deriv_le (μ := volume) (F := fun s (z : Fin p → ℝ) => (1 + q v z) ^ (-s))
    (F' := fun s z => -(Real.log (1 + q v z) * (1 + q v z) ^ (-s))) (bound := fun z => 1 / d * (1 + q v z) ^ (-(s - 2 * d))) (s := Ioi (s - d)) (x₀ := s)
    (Ioi_mem_nhds (by linarith)) (Eventually.of_forall fun s => Measurable.aestronglyMeasurable (by unfold q; fun_prop)) (int_pow hv hs).1
    (Measurable.aestronglyMeasurable (by unfold q; fun_prop))
    (Eventually.of_forall fun z t ht => by
      have ht' : s - d < t := ht
      have h1 := hb z
      have h0 : 0 < 1 + q v z := by linarith
      rw [norm_neg, Real.norm_eq_abs, abs_mul, abs_of_nonneg (Real.log_nonneg h1), abs_of_pos (Real.rpow_pos_of_pos h0 _)]
      have h2 := Real.log_le_rpow_div h0.le hd0
      calc Real.log (1 + q v z) * (1 + q v z) ^ (-t) ≤ (1 + q v z) ^ d / d * (1 + q v z) ^ (-t) :=
            mul_le_mul_of_nonneg_right h2 (Real.rpow_nonneg h0.le _)
        _ = 1 / d * (1 + q v z) ^ (d + -t) := by rw [Real.rpow_add h0]; ring
        _ ≤ 1 / d * (1 + q v z) ^ (-(s - 2 * d)) := mul_le_mul_of_nonneg_left (Real.rpow_le_rpow_of_exponent_le h1 (by linarith)) (by positivity))
    ((int_pow hv (by rw [hd]; linarith : (p:ℝ) / 2 < s - 2 * d)).1.const_mul _)
    (Eventually.of_forall fun z t _ => by
      have h0 : 0 < 1 + q v z := by linarith [hb z]
      refine ((hasDerivAt_neg t).const_rpow h0).congr_deriv ?_
      ring)
  have h2 : (fun s => ∫ z : Fin p → ℝ, (1 + q v z) ^ (-s)) =ᶠ[𝓝 s] I p v := by
    filter_upwards [Ioi_mem_nhds hs] with t ht
    exact (int_pow hv ht).2
  have h3 := key.2.unique ((I_deriv hs).congr_of_eventuallyEq h2)
  refine ⟨by simpa using key.1.neg, ?_⟩
  rw [integral_neg] at h3
  linarith

/-! ### A general scale matrix -/

theorem lin_change {M : Matrix (Fin p) (Fin p) ℝ} (hM : M.det ≠ 0) {h : (Fin p → ℝ) → ℝ} (hc : Continuous h) (hi : Integrable fun z => h (M *ᵥ z)) :
    Integrable h ∧ ∫ x, h x = |M.det| * ∫ z, h (M *ᵥ z) := by
  have e := Real.map_matrix_volume_pi_eq_smul_volume_pi hM
  have hm : Measurable (Matrix.toLin' M) := (LinearMap.continuous_on_pi _).measurable
  have h0 : |M.det| ≠ 0 := abs_ne_zero.2 hM
  have hs : ENNReal.ofReal |M.det⁻¹| ≠ 0 := by
    rw [abs_inv]; simp [hM]
  have h1 : Integrable h (Measure.map (Matrix.toLin' M) volume) := by
    rw [integrable_map_measure hc.aestronglyMeasurable hm.aemeasurable]; exact hi
  have h2 := integral_map (μ := volume) hm.aemeasurable (f := h) hc.aestronglyMeasurable
  rw [e] at h1 h2
  rw [integral_smul_measure, ENNReal.toReal_ofReal (abs_nonneg _), abs_inv, smul_eq_mul] at h2
  refine ⟨(integrable_smul_measure hs ENNReal.ofReal_ne_top).1 h1, ?_⟩
  have h3 : ∫ z, h (Matrix.toLin' M z) = ∫ z, h (M *ᵥ z) := rfl
  rw [← h3, ← h2]; field_simp

theorem posDef_factor {S : Matrix (Fin p) (Fin p) ℝ} (hS : S.PosDef) : ∃ M : Matrix (Fin p) (Fin p) ℝ, M.det ≠ 0 ∧ |M.det| = √S.det ∧
    ∀ z, (M *ᵥ z) ⬝ᵥ (S⁻¹ *ᵥ (M *ᵥ z)) = ∑ i, z i ^ 2 := by
  open scoped MatrixOrder in
  obtain ⟨B, hB⟩ := CStarAlgebra.nonneg_iff_eq_star_mul_self.mp hS.posSemidef.nonneg
  have hB' : S = Bᵀ * B := by rw [hB]; simp [star_eq_conjTranspose, conjTranspose_eq_transpose_of_trivial]
  have hd : S.det = B.det ^ 2 := by rw [hB', det_mul, det_transpose, sq]
  have hd0 := hS.det_pos
  have hBd : B.det ≠ 0 := by
    intro h; rw [hd, h] at hd0; simp at hd0
  refine ⟨Bᵀ, by rwa [det_transpose], by rw [det_transpose, hd, Real.sqrt_sq_eq_abs], fun z => ?_⟩
  have hu : IsUnit B.det := isUnit_iff_ne_zero.2 hBd
  have hut : IsUnit Bᵀ.det := by rwa [det_transpose]
  rw [hB', Matrix.mul_inv_rev, mulVec_mulVec, Matrix.mul_assoc, Matrix.nonsing_inv_mul _ hut, Matrix.mul_one, mulVec_transpose,
    ← dotProduct_mulVec, mulVec_mulVec, Matrix.mul_nonsing_inv _ hu, one_mulVec, dotProduct]
  exact Finset.sum_congr rfl fun i _ => (sq _).symm

/-- `(x - m)ᵀ S⁻¹ (x - m) / v` -/
noncomputable def Q (v : ℝ) (m : Fin p → ℝ) (S : Matrix (Fin p) (Fin p) ℝ) (x : Fin p → ℝ) : ℝ := (x - m) ⬝ᵥ (S⁻¹ *ᵥ (x - m)) / v

theorem Q_nonneg (hv : 0 < v) (m : Fin p → ℝ) {S : Matrix (Fin p) (Fin p) ℝ} (hS : S.PosDef) (x : Fin p → ℝ) : 0 ≤ Q v m S x := by
  refine div_nonneg ?_ hv.le
  have := hS.inv.posSemidef.dotProduct_mulVec_nonneg (x - m)
  simpa using this

theorem Q_cont (m : Fin p → ℝ) (S : Matrix (Fin p) (Fin p) ℝ) : Continuous (Q v m S) := by
  unfold Q; simp only [dotProduct, mulVec]; fun_prop

theorem change (m : Fin p → ℝ) {S : Matrix (Fin p) (Fin p) ℝ} (hS : S.PosDef) {g : ℝ → ℝ} (hc : Continuous fun x => g (Q v 0 S x))
    (hi : Integrable fun z : Fin p → ℝ => g (q v z)) :
    Integrable (fun x => g (Q v m S x)) ∧ ∫ x, g (Q v m S x) = √S.det * ∫ z : Fin p → ℝ, g (q v z) := by
  obtain ⟨M, h1, h2, h3⟩ := posDef_factor hS
  have e : ∀ z, Q v 0 S (M *ᵥ z) = q v z := fun z => by rw [Q, sub_zero, h3, q]
  have k := lin_change h1 (h := fun x => g (Q v 0 S x)) hc (by simpa only [e] using hi)
  simp only [e, h2] at k
  have e2 : ∀ x, Q v m S x = Q v 0 S (x - m) := fun x => by rw [Q, Q, sub_zero]
  simp only [e2]
  exact ⟨k.1.comp_sub_right m, by rw [integral_sub_right_eq_self (fun x => g (Q v 0 S x)) m, k.2]⟩

noncomputable def C (v : ℝ) (S : Matrix (Fin p) (Fin p) ℝ) : ℝ := √S.det * I p v ((v + p) / 2)

theorem C_pos (hv : 0 < v) {S : Matrix (Fin p) (Fin p) ℝ} (hS : S.PosDef) : 0 < C v S :=
  mul_pos (Real.sqrt_pos.2 hS.det_pos) (I_pos hv (by linarith))

/-- the density -/
noncomputable def f (v : ℝ) (m : Fin p → ℝ) (S : Matrix (Fin p) (Fin p) ℝ) (x : Fin p → ℝ) : ℝ := (1 + Q v m S x) ^ (-((v + p) / 2)) / C v S

theorem f_pos (hv : 0 < v) (m : Fin p → ℝ) {S : Matrix (Fin p) (Fin p) ℝ} (hS : S.PosDef) (x : Fin p → ℝ) : 0 < f v m S x :=
  div_pos (Real.rpow_pos_of_pos (by linarith [Q_nonneg hv m hS x]) _) (C_pos hv hS)

theorem int_one (hv : 0 < v) (m : Fin p → ℝ) {S : Matrix (Fin p) (Fin p) ℝ} (hS : S.PosDef) : Integrable (f v m S) ∧ ∫ x, f v m S x = 1 := by
  have hc := (C_pos hv hS).ne'
  obtain ⟨h1, h2⟩ := change (v := v) m hS (g := fun u => (1 + u) ^ (-((v + p) / 2)))
    ((continuous_const.add (Q_cont 0 S)).rpow_const fun x => Or.inl (by linarith [Q_nonneg hv 0 hS x] : (0:ℝ) < 1 + Q v 0 S x).ne')
    (int_pow hv (by linarith : (p:ℝ) / 2 < (v + p) / 2)).1
  refine ⟨h1.div_const _, ?_⟩
  simp only [f]
  rw [integral_div, h2, (int_pow hv (by linarith : (p:ℝ) / 2 < (v + p) / 2)).2, ← C, div_self hc]

theorem log_f (hv : 0 < v) (m : Fin p → ℝ) {S : Matrix (Fin p) (Fin p) ℝ} (hS : S.PosDef) (x : Fin p → ℝ) :
    Real.log (f v m S x) = -((v + p) / 2) * Real.log (1 + Q v m S x) - Real.log (C v S) := by
  have h0 : 0 < 1 + Q v m S x := by linarith [Q_nonneg hv m hS x]
  rw [f, Real.log_div (Real.rpow_pos_of_pos h0 _).ne' (C_pos hv hS).ne', Real.log_rpow h0]

theorem log_C (hv : 0 < v) {S : Matrix (Fin p) (Fin p) ℝ} (hS : S.PosDef) : Real.log (C v S) = Real.log S.det / 2 +
    (p / 2 * Real.log (Real.pi * v) + Real.log (Real.Gamma (v / 2)) - Real.log (Real.Gamma ((v + p) / 2))) := by
  have hp : (0:ℝ) ≤ p := p.cast_nonneg
  have hd := hS.det_pos
  have g1 := Real.Gamma_pos_of_pos (by linarith : 0 < v / 2)
  have g2 := Real.Gamma_pos_of_pos (by linarith : 0 < (v + p) / 2)
  have e : (v + p) / 2 - p / 2 = v / 2 := by ring
  rw [C, I, e, Real.log_mul (Real.sqrt_pos.2 hd).ne' (by positivity), Real.log_sqrt hd.le, Real.log_div (by positivity) g2.ne',
    Real.log_mul (by positivity) g1.ne', Real.log_rpow (by positivity)]

theorem int_ent (hv : 0 < v) (m : Fin p → ℝ) {S : Matrix (Fin p) (Fin p) ℝ} (hS : S.PosDef) : Integrable (fun x => f v m S x * Real.log (f v m S x)) ∧
    ∫ x, f v m S x * Real.log (f v m S x) = -((v + p) / 2) * (psi ((v + p) / 2) - psi (v / 2)) - Real.log (C v S) := by
  have hc := (C_pos hv hS).ne'
  have hs : (p:ℝ) / 2 < (v + p) / 2 := by linarith
  have hq : ∀ x, (1:ℝ) + Q v 0 S x ≠ 0 := fun x => (by linarith [Q_nonneg hv 0 hS x] : (0:ℝ) < 1 + Q v 0 S x).ne'
  obtain ⟨h1, h2⟩ := change (v := v) m hS (g := fun u => Real.log (1 + u) * (1 + u) ^ (-((v + p) / 2)))
    (((continuous_const.add (Q_cont 0 S)).log hq).mul ((continuous_const.add (Q_cont 0 S)).rpow_const fun x => Or.inl (hq x))) (int_log hv hs).1
  have e : ∀ x, f v m S x * Real.log (f v m S x) =
      -((v + p) / 2) / C v S * (Real.log (1 + Q v m S x) * (1 + Q v m S x) ^ (-((v + p) / 2))) - Real.log (C v S) * f v m S x := fun x => by
    rw [log_f hv m hS, f]; ring
  simp only [e]
  have k := int_one hv m hS
  refine ⟨(h1.const_mul _).sub (k.1.const_mul _), ?_⟩
  rw [integral_sub (h1.const_mul _) (k.1.const_mul _), integral_const_mul, integral_const_mul, h2, k.2, (int_log hv hs).2, mul_one,
    show (v + p) / 2 - (p:ℝ) / 2 = v / 2 by ring]
  have : √S.det * (I p v ((v + p) / 2) * (psi ((v + p) / 2) - psi (v / 2))) = C v S * (psi ((v + p) / 2) - psi (v / 2)) := by rw [C]; ring
  rw [this]; field_simp

end Mpsci.mvtD
