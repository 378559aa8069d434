import Verif.Lemmas.WrightDeriv
import Mathlib.Analysis.Calculus.Deriv.MeanValue
import Mathlib.Analysis.SpecialFunctions.ExpDeriv

/-! The ratio of the Bessel functions of orders 1 and 0, and the mode of the Rice distribution. -/

namespace Mpsci.rice

open Classical Filter Topology Set

local notation "W1" => wrightR 1 1
local notation "W2" => wrightR 1 2
local notation "W3" => wrightR 1 3

theorem d1 (u : ℝ) : HasDerivAt W1 (W2 u) u := by have := hasDerivAt_wright 1 u; norm_num at this; exact this
theorem d2 (u : ℝ) : HasDerivAt W2 (W3 u) u := by have := hasDerivAt_wright 2 u; norm_num at this; exact this
theorem rec1 (u : ℝ) : W1 u = W2 u + u * W3 u := by have := w_rec 1 u; norm_num at this; exact this
theorem W1_pos {u : ℝ} (h : 0 ≤ u) : 0 < W1 u := wright_pos one_pos h
theorem W2_pos {u : ℝ} (h : 0 ≤ u) : 0 < W2 u := wright_pos two_pos h

/-- a Turán inequality -/
theorem turan {u : ℝ} (h : 0 < u) : W1 u * W3 u < W2 u ^ 2 := by
  set P : ℝ → ℝ := fun u => u * W1 u ^ 2 - u * (W1 u * W2 u) - u ^ 2 * W2 u ^ 2 with hP
  have hd : ∀ u, HasDerivAt P (-(u * W2 u ^ 2)) u := fun u => by
    have e1 := (hasDerivAt_id' u).mul ((d1 u).pow 2)
    have e2 := (hasDerivAt_id' u).mul ((d1 u).mul (d2 u))
    have e3 := (hasDerivAt_pow 2 u).mul ((d2 u).pow 2)
    refine ((e1.sub e2).sub e3).congr_deriv ?_
    have r := rec1 u
    simp only [Nat.cast_ofNat, Nat.add_one_sub_one, pow_one, Pi.pow_apply, Pi.mul_apply]
    have r3 : u * W3 u = W1 u - W2 u := by linarith
    linear_combination (-(W1 u) - 2 * u * W2 u) * r3
  have hs : StrictAntiOn P (Ici 0) := by
    refine strictAntiOn_of_deriv_neg (convex_Ici 0) (fun x _ => (hd x).continuousAt.continuousWithinAt) fun x hx => ?_
    rw [interior_Ici] at hx
    rw [(hd x).deriv]
    have := W2_pos (le_of_lt hx)
    have hx' : 0 < x := hx
    have : 0 < x * W2 x ^ 2 := by positivity
    linarith
  have h1 := hs (by simp : (0:ℝ) ∈ Ici 0) (show u ∈ Ici 0 from h.le) h
  simp only [hP, zero_mul, sub_zero, ne_eq, OfNat.ofNat_ne_zero, not_false_eq_true, zero_pow] at h1
  have r := rec1 u
  have h2 : u * u * (W1 u * W3 u) < u * u * W2 u ^ 2 := by
    have : u * u * (W1 u * W3 u) = u * W1 u * (W1 u - W2 u) := by
      have r3 : u * W3 u = W1 u - W2 u := by linarith
      linear_combination (u * W1 u) * r3
    rw [this]; nlinarith
  exact lt_of_mul_lt_mul_left h2 (by positivity)

theorem ratio_anti : StrictAntiOn (fun u => W2 u / W1 u) (Ici 0) := by
  have hd : ∀ u ∈ Ici (0:ℝ), HasDerivAt (fun u => W2 u / W1 u) ((W3 u * W1 u - W2 u * W2 u) / W1 u ^ 2) u := fun u hu => (d2 u).div (d1 u) (W1_pos hu).ne'
  refine strictAntiOn_of_deriv_neg (convex_Ici 0) (fun x hx => (hd x hx).continuousAt.continuousWithinAt) fun x hx => ?_
  rw [interior_Ici] at hx
  have hx' : 0 < x := hx
  rw [(hd x hx'.le).deriv]
  have := turan hx'
  exact div_neg_of_neg_of_pos (by nlinarith) (pow_pos (W1_pos hx'.le) 2)

/-- `I₁ < I₀` -/
theorem I1_lt_I0 {t : ℝ} (ht : 0 ≤ t) : t * W2 (t ^ 2) < W1 (t ^ 2) := by
  have h1 := hasSum_w 1 (t ^ 2)
  have h2 := (hasSum_w 2 (t ^ 2)).mul_left t
  have h0 : HasSum (fun k : ℕ => (t ^ 2) ^ (k + 1) / ((k + 1).factorial * Real.Gamma ((k + 1 : ℕ) + 1))) (W1 (t ^ 2) - 1) := by
    have := (hasSum_nat_add_iff' 1).2 h1
    simpa using this
  have h3 := (h1.add h0).div_const 2
  have hle : t * W2 (t ^ 2) ≤ (W1 (t ^ 2) + (W1 (t ^ 2) - 1)) / 2 := by
    refine hasSum_le (fun k => ?_) h2 h3
    have hf : (0:ℝ) < k.factorial := by exact_mod_cast k.factorial_pos
    have hk : (0:ℝ) < (k:ℝ) + 1 := by positivity
    have g1 : Real.Gamma ((k:ℝ) + 1) = k.factorial := Real.Gamma_nat_eq_factorial k
    have g2 : Real.Gamma ((k:ℝ) + 2) = (k + 1) * k.factorial := by
      rw [show (k:ℝ) + 2 = k + 1 + 1 by ring, Real.Gamma_add_one hk.ne', g1]
    have g3 : Real.Gamma (((k + 1 : ℕ) : ℝ) + 1) = (k + 1) * k.factorial := by rw [← g2]; congr 1; push_cast; ring
    rw [g1, g2, g3, Nat.factorial_succ]
    push_cast
    have e : ((t ^ 2) ^ k / (k.factorial * k.factorial) + (t ^ 2) ^ (k + 1) / ((k + 1) * k.factorial * ((k + 1) * k.factorial))) / 2 -
        t * ((t ^ 2) ^ k / (k.factorial * ((k + 1) * k.factorial))) = (t ^ k / k.factorial - t ^ (k + 1) / ((k + 1) * k.factorial)) ^ 2 / 2 := by
      rw [← pow_mul, ← pow_mul]
      field_simp
      ring
    have : 0 ≤ (t ^ k / k.factorial - t ^ (k + 1) / ((k + 1) * k.factorial)) ^ 2 / 2 := by positivity
    linarith
  linarith

variable {ν s x : ℝ}

/-- density, up to a constant factor -/
noncomputable def den (ν s x : ℝ) : ℝ := x * (Real.exp (-(x ^ 2 + ν ^ 2) / (2 * s ^ 2)) * W1 ((ν / s ^ 2 * x / 2) ^ 2))

/-- the mode equation divided by `x²` -/
noncomputable def eqR (ν s x : ℝ) : ℝ := s ^ 2 / x ^ 2 - 1 + ν * (ν / s ^ 2) / 2 * (W2 ((ν / s ^ 2 * x / 2) ^ 2) / W1 ((ν / s ^ 2 * x / 2) ^ 2))

theorem hasDerivAt_den (hs : 0 < s) (hx : 0 < x) : HasDerivAt (den ν s)
    (Real.exp (-(x ^ 2 + ν ^ 2) / (2 * s ^ 2)) * W1 ((ν / s ^ 2 * x / 2) ^ 2) * (x ^ 2 / s ^ 2) * eqR ν s x) x := by
  have e1 : HasDerivAt (fun x : ℝ => Real.exp (-(x ^ 2 + ν ^ 2) / (2 * s ^ 2))) (Real.exp (-(x ^ 2 + ν ^ 2) / (2 * s ^ 2)) * (-x / s ^ 2)) x := by
    have := (((hasDerivAt_pow 2 x).add_const (ν ^ 2)).neg.div_const (2 * s ^ 2)).exp
    refine this.congr_deriv ?_
    simp only [Pi.neg_apply]
    push_cast; field_simp
  have e2 : HasDerivAt (fun x : ℝ => (ν / s ^ 2 * x / 2) ^ 2) (ν / s ^ 2 * (ν / s ^ 2 * x / 2)) x := by
    have := ((((hasDerivAt_id' x).const_mul (ν / s ^ 2)).div_const 2).pow 2)
    refine this.congr_deriv ?_
    push_cast; ring
  have e3 := (d1 ((ν / s ^ 2 * x / 2) ^ 2)).comp x e2
  have hW := (W1_pos (sq_nonneg (ν / s ^ 2 * x / 2))).ne'
  refine ((hasDerivAt_id' x).mul (e1.mul e3)).congr_deriv ?_
  simp only [Function.comp, eqR, Pi.mul_apply]
  generalize W1 ((ν / s ^ 2 * x / 2) ^ 2) = A at *
  generalize W2 ((ν / s ^ 2 * x / 2) ^ 2) = B at *
  field_simp
  ring

theorem eqR_anti (hν : 0 ≤ ν) (hs : 0 < s) : StrictAntiOn (eqR ν s) (Ioi 0) := by
  intro x hx y hy hxy
  have hx' : 0 < x := hx
  have hr : 0 ≤ ν / s ^ 2 := by positivity
  have h1 : s ^ 2 / y ^ 2 < s ^ 2 / x ^ 2 := by gcongr
  have h2 := ratio_anti.antitoneOn (a := (ν / s ^ 2 * x / 2) ^ 2) (b := (ν / s ^ 2 * y / 2) ^ 2) (mem_Ici.2 (sq_nonneg _)) (mem_Ici.2 (sq_nonneg _)) (by gcongr)
  have h3 : ν * (ν / s ^ 2) / 2 * (W2 ((ν / s ^ 2 * y / 2) ^ 2) / W1 ((ν / s ^ 2 * y / 2) ^ 2)) ≤
      ν * (ν / s ^ 2) / 2 * (W2 ((ν / s ^ 2 * x / 2) ^ 2) / W1 ((ν / s ^ 2 * x / 2) ^ 2)) := mul_le_mul_of_nonneg_left h2 (by positivity)
  simp only [eqR]; linarith

theorem den_le (hν : 0 ≤ ν) (hs : 0 < s) {m : ℝ} (hm : 0 < m) (h0 : eqR ν s m = 0) (hx : 0 < x) : den ν s x ≤ den ν s m := by
  have hpos : ∀ x : ℝ, 0 < x → 0 < Real.exp (-(x ^ 2 + ν ^ 2) / (2 * s ^ 2)) * W1 ((ν / s ^ 2 * x / 2) ^ 2) * (x ^ 2 / s ^ 2) := fun x hx => by
    have := W1_pos (sq_nonneg (ν / s ^ 2 * x / 2)); positivity
  rcases le_or_gt x m with h | h
  · have hmono : MonotoneOn (den ν s) (Icc x m) := by
      refine monotoneOn_of_deriv_nonneg (convex_Icc x m) (fun y hy => (hasDerivAt_den hs (hx.trans_le hy.1)).continuousAt.continuousWithinAt)
        (fun y hy => ?_) fun y hy => ?_
      · rw [interior_Icc] at hy
        exact (hasDerivAt_den hs (hx.trans hy.1)).differentiableAt.differentiableWithinAt
      · rw [interior_Icc] at hy
        have hy0 := hx.trans hy.1
        rw [(hasDerivAt_den hs hy0).deriv]
        refine mul_nonneg (hpos y hy0).le ?_
        rw [← h0]; exact (eqR_anti hν hs hy0 hm hy.2).le
    exact hmono ⟨le_rfl, h⟩ ⟨h, le_rfl⟩ h
  · have hanti : AntitoneOn (den ν s) (Icc m x) := by
      refine antitoneOn_of_deriv_nonpos (convex_Icc m x) (fun y hy => (hasDerivAt_den hs (hm.trans_le hy.1)).continuousAt.continuousWithinAt)
        (fun y hy => ?_) fun y hy => ?_
      · rw [interior_Icc] at hy
        exact (hasDerivAt_den hs (hm.trans hy.1)).differentiableAt.differentiableWithinAt
      · rw [interior_Icc] at hy
        have hy0 := hm.trans hy.1
        rw [(hasDerivAt_den hs hy0).deriv]
        refine mul_nonpos_of_nonneg_of_nonpos (hpos y hy0).le ?_
        rw [← h0]; exact (eqR_anti hν hs hm hy0 hy.1).le
    exact hanti ⟨le_rfl, h.le⟩ ⟨h.le, le_rfl⟩ h.le

/-- The mode equation has a positive solution. -/
theorem exists_root (hν : 0 ≤ ν) (hs : 0 < s) : ∃ m, 0 < m ∧ eqR ν s m = 0 := by
  have hcont : ContinuousOn (eqR ν s) (Ioi 0) := fun x hx => by
    have hx' : x ^ 2 ≠ 0 := by have : 0 < x := hx; positivity
    have hW := (W1_pos (sq_nonneg (ν / s ^ 2 * x / 2))).ne'
    have c1 := continuous_wright 1
    have c2 := continuous_wright 2
    refine ContinuousAt.continuousWithinAt ?_
    unfold eqR
    fun_prop (disch := assumption)
  have hr : 0 ≤ ν / s ^ 2 := by positivity
  have hge : 0 ≤ eqR ν s s := by
    have h1 := W1_pos (sq_nonneg (ν / s ^ 2 * s / 2))
    have h2 := W2_pos (sq_nonneg (ν / s ^ 2 * s / 2))
    rw [eqR, div_self (by positivity), sub_self, zero_add]; positivity
  set b := s + ν + 1 with hb
  have hb0 : 0 < b := by positivity
  have hle : eqR ν s b ≤ 0 := by
    have h1 := W1_pos (sq_nonneg (ν / s ^ 2 * b / 2))
    have h2 := I1_lt_I0 (t := ν / s ^ 2 * b / 2) (by positivity)
    have h3 : ν * (ν / s ^ 2) / 2 * (W2 ((ν / s ^ 2 * b / 2) ^ 2) / W1 ((ν / s ^ 2 * b / 2) ^ 2)) ≤ ν / b := by
      have e : ν * (ν / s ^ 2) / 2 * (W2 ((ν / s ^ 2 * b / 2) ^ 2) / W1 ((ν / s ^ 2 * b / 2) ^ 2)) =
          ν / b * ((ν / s ^ 2 * b / 2) * W2 ((ν / s ^ 2 * b / 2) ^ 2) / W1 ((ν / s ^ 2 * b / 2) ^ 2)) := by
        field_simp
      rw [e]
      exact mul_le_of_le_one_right (by positivity) ((div_le_one h1).2 h2.le)
    have h4 : s ^ 2 / b ^ 2 ≤ s / b := by
      rw [← div_pow]
      have : s / b ≤ 1 := (div_le_one hb0).2 (by linarith)
      have h0 : 0 ≤ s / b := by positivity
      nlinarith
    have h5 : s / b + ν / b ≤ 1 := by rw [← add_div, div_le_one hb0]; linarith
    rw [eqR]; linarith
  obtain ⟨m, hm, h0⟩ := intermediate_value_Icc' (by linarith : s ≤ b) (hcont.mono fun x hx => hs.trans_le hx.1) ⟨hle, hge⟩
  exact ⟨m, hs.trans_le hm.1, h0⟩

end Mpsci.rice
