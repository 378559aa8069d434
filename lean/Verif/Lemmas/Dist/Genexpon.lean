import Verif.Model.Dist.Genexpon
import Verif.Lemmas.Common
import Verif.Lemmas.Helpers
import Verif.Lemmas.Inverts

namespace Mpsci.genexpon

open Classical Num common Filter Topology Set

variable {a b c loc s : ℝ}

/-- The admissible parameters. -/
def Valid (a b c s : ℝ) : Prop := 0 < a ∧ 0 < b ∧ 0 < c ∧ 0 < s

/-- The cumulative hazard. -/
noncomputable def H (a b c z : ℝ) : ℝ := (a + b) * z - b / c * (1 - Real.exp (-c * z))
noncomputable def hz (a b c z : ℝ) : ℝ := a + b * (1 - Real.exp (-c * z))
noncomputable def F (a b c z : ℝ) : ℝ := if z ≤ 0 then 0 else 1 - Real.exp (-H a b c z)
noncomputable def f (a b c z : ℝ) : ℝ := if z < 0 then 0 else hz a b c z * Real.exp (-H a b c z)

theorem H_zero : H a b c 0 = 0 := by simp [H]

theorem validate_ok (h : Valid a b c s) : validateParams (fin a) (fin b) (fin c) (fin loc) (fin s) =
    .ok (fin a, fin b, fin c, fin loc, fin s) := by
  simp [validateParams, h.1.not_ge, h.2.1.not_ge, h.2.2.1.not_ge, h.2.2.2.not_ge]
theorem validate_bad (h : ¬ Valid a b c s) :
    validateParams (fin a) (fin b) (fin c) (fin loc) (fin s) = .error .valueError := by
  by_cases ha : a ≤ 0
  · simp [validateParams, ha]
  by_cases hb : b ≤ 0
  · simp [validateParams, hb]
  by_cases hc : c ≤ 0
  · simp [validateParams, hc]
  by_cases hs : s ≤ 0
  · simp [validateParams, hs]
  exact absurd ⟨not_le.1 ha, not_le.1 hb, not_le.1 hc, not_le.1 hs⟩ h

theorem vx_ok (h : Valid a b c s) {x : ℝ} (hx : loc ≤ x) :
    validateXParams (fin x) (fin a) (fin b) (fin c) (fin loc) (fin s) =
    .ok (fin x, fin a, fin b, fin c, fin loc, fin s) := by
  simp [validateXParams, validate_ok h, hx.not_gt]
theorem vx_low {x : ℝ} (hx : x < loc) :
    validateXParams (fin x) (fin a) (fin b) (fin c) (fin loc) (fin s) = .error .valueError := by
  by_cases h : Valid a b c s
  · simp [validateXParams, validate_ok h, hx]
  · simp [validateXParams, validate_bad h]
theorem vx_bad (h : ¬ Valid a b c s) (x : ℝ) :
    validateXParams (fin x) (fin a) (fin b) (fin c) (fin loc) (fin s) = .error .valueError := by
  simp [validateXParams, validate_bad h]

theorem z_nonneg (hs : 0 < s) {x : ℝ} (hx : loc ≤ x) : 0 ≤ (x - loc) / s := div_nonneg (by linarith) hs.le

theorem F_eq {z : ℝ} (hz : 0 ≤ z) : F a b c z = 1 - Real.exp (-H a b c z) := by
  rcases hz.eq_or_lt with rfl | h
  · simp [F, H_zero]
  · rw [F, if_neg h.not_ge]

theorem cdf_eval (h : Valid a b c s) {x : ℝ} (hx : loc ≤ x) :
    cdf (fin x) (fin a) (fin b) (fin c) (fin loc) (fin s) = .ok (fin (F a b c ((x - loc) / s))) := by
  rw [F_eq (z_nonneg h.2.2.2 hx)]
  simp only [cdf, vx_ok h hx, ok_bind, fin_sub, fin_div _ h.2.2.2.ne', fin_add, fin_div _ h.2.2.1.ne', neg_fin, fin_mul,
    mp.expm1_fin, pure_eq_ok, H]
  congr 2; rw [neg_sub]; congr 2; ring
theorem sf_eval (h : Valid a b c s) {x : ℝ} (hx : loc ≤ x) :
    sf (fin x) (fin a) (fin b) (fin c) (fin loc) (fin s) = .ok (fin (1 - F a b c ((x - loc) / s))) := by
  rw [F_eq (z_nonneg h.2.2.2 hx)]
  simp only [sf, vx_ok h hx, ok_bind, fin_sub, fin_div _ h.2.2.2.ne', fin_add, fin_div _ h.2.2.1.ne', neg_fin, fin_mul,
    mp.expm1_fin, mp.exp_fin, pure_eq_ok, H]
  congr 2; rw [sub_sub_cancel]; congr 1; ring
theorem pdf_eval (h : Valid a b c s) {x : ℝ} (hx : loc ≤ x) :
    pdf (fin x) (fin a) (fin b) (fin c) (fin loc) (fin s) = .ok (fin (f a b c ((x - loc) / s) / s)) := by
  rw [f, if_neg (z_nonneg h.2.2.2 hx).not_gt]
  simp only [pdf, vx_ok h hx, ok_bind, fin_sub, fin_div _ h.2.2.2.ne', fin_add, fin_div _ h.2.2.1.ne', neg_fin, fin_mul,
    mp.expm1_fin, mp.exp_fin, H, hz]
  congr 4 <;> ring
theorem hz_pos (h : Valid a b c s) {z : ℝ} (hz0 : 0 ≤ z) : 0 < hz a b c z := by
  have : Real.exp (-c * z) ≤ 1 := Real.exp_le_one_iff.2 (by nlinarith [h.2.2.1])
  have := mul_nonneg h.2.1.le (show 0 ≤ 1 - Real.exp (-c * z) by linarith)
  rw [hz]; linarith [h.1]
theorem logpdf_eval (h : Valid a b c s) {x : ℝ} (hx : loc ≤ x) :
    logpdf (fin x) (fin a) (fin b) (fin c) (fin loc) (fin s) = .ok (fin (Real.log (f a b c ((x - loc) / s)))) := by
  have hz0 := z_nonneg h.2.2.2 hx
  have hp : 0 < a + b * -(Real.exp (-c * ((x - loc) / s)) - 1) := by rw [neg_sub]; exact hz_pos h hz0
  rw [f, if_neg hz0.not_gt, Real.log_mul (hz_pos h hz0).ne' (Real.exp_pos _).ne', Real.log_exp]
  simp only [logpdf, vx_ok h hx, ok_bind, fin_sub, fin_div _ h.2.2.2.ne', fin_add, fin_div _ h.2.2.1.ne', neg_fin, fin_mul,
    mp.expm1_fin, mp.log_pos hp, H, hz, pure_eq_ok]
  rw [neg_sub (Real.exp _) 1]
  congr 3; ring

theorem hasDerivAt_H (hc : c ≠ 0) (z : ℝ) : HasDerivAt (H a b c) (hz a b c z) z := by
  have h1 : HasDerivAt (fun z : ℝ => -c * z) (-c) z := by simpa using (hasDerivAt_id' z).const_mul (-c)
  refine (((hasDerivAt_id' z).const_mul (a + b)).sub ((h1.exp.const_sub 1).const_mul (b / c))).congr_deriv ?_
  rw [hz]; field_simp; ring

theorem strictMonoOn_H (h : Valid a b c s) : StrictMonoOn (H a b c) (Ici 0) := by
  refine strictMonoOn_of_deriv_pos (convex_Ici _)
    (fun x _ => (hasDerivAt_H h.2.2.1.ne' x).continuousAt.continuousWithinAt) fun w hw => ?_
  rw [interior_Ici] at hw
  rw [(hasDerivAt_H h.2.2.1.ne' w).deriv]; exact hz_pos h (le_of_lt hw)

theorem H_ge (h : Valid a b c s) (z : ℝ) : a * z ≤ H a b c z := by
  have h1 := Real.add_one_le_exp (-c * z)
  have h2 : b / c * (1 - Real.exp (-c * z)) ≤ b / c * (c * z) :=
    mul_le_mul_of_nonneg_left (by linarith) (div_pos h.2.1 h.2.2.1).le
  have h3 : b / c * (c * z) = b * z := by have := h.2.2.1.ne'; field_simp
  rw [H]; linarith

theorem tendsto_H (h : Valid a b c s) : Tendsto (H a b c) atTop atTop :=
  tendsto_atTop_mono (H_ge h) (tendsto_id.const_mul_atTop h.1)

theorem isDist_std (h : Valid a b c s) : IsDist (F a b c) (f a b c) := by
  have hd : ∀ z, HasDerivAt (fun z => 1 - Real.exp (-H a b c z)) (hz a b c z * Real.exp (-H a b c z)) z := fun z => by
    refine ((hasDerivAt_H h.2.2.1.ne' z).neg.exp.const_sub 1).congr_deriv ?_
    simp only [Pi.neg_apply]; ring
  refine isDist_Ioi (a := 0) (G := fun z => 1 - Real.exp (-H a b c z)) (fun x hx => if_pos hx)
    (fun x hx => if_neg (not_le.2 hx)) (by simp [H_zero]) (hd 0).continuousAt.continuousWithinAt
    (fun x hx => if_pos hx) ?_ (fun x hx => ?_) (fun x hx => ?_) ?_
  · rw [f, if_neg (lt_irrefl _)]; exact mul_nonneg (hz_pos h le_rfl).le (Real.exp_pos _).le
  · rw [f, if_neg hx.not_gt]; exact hd x
  · rw [f, if_neg hx.not_gt]; exact mul_nonneg (hz_pos h hx.le).le (Real.exp_pos _).le
  · simpa using (Real.tendsto_exp_neg_atTop_nhds_zero.comp (tendsto_H h)).const_sub 1

theorem isDist (h : Valid a b c s) : IsDist (fun x => F a b c ((x - loc) / s)) (fun x => f a b c ((x - loc) / s) / s) :=
  (isDist_std h).affine loc h.2.2.2

theorem exists_H (h : Valid a b c s) {t : ℝ} (ht : 0 < t) : ∃ z, 0 < z ∧ H a b c z = t := by
  obtain ⟨y, hy⟩ := (((tendsto_H h).eventually (eventually_ge_atTop t)).and (eventually_ge_atTop 0)).exists
  obtain ⟨z, hz', e⟩ := intermediate_value_Icc hy.2
    (fun x _ => (hasDerivAt_H (a := a) (b := b) h.2.2.1.ne' x).continuousAt.continuousWithinAt)
    (show t ∈ Icc (H a b c 0) (H a b c y) from ⟨by rw [H_zero]; exact ht.le, hy.1⟩)
  refine ⟨z, lt_of_le_of_ne hz'.1 ?_, e⟩
  rintro rfl; rw [H_zero] at e; linarith

/-- The lines shared by the inverses. -/
theorem solve_eval (h : Valid a b c s) {z : ℝ} (hz0 : 0 ≤ z) :
    let r := b / (a + b)
    let t := r / c - -H a b c z / (a + b)
    mp.lambertw (fin (-r * Real.exp (-t * c))) = .ok (fin (c * (z - t))) := by
  obtain ⟨ha, hb, hc, hs⟩ := h
  have hab : 0 < a + b := by linarith
  intro r t
  have hr : 0 < r := div_pos hb hab
  have hr1 : r < 1 := by rw [div_lt_one hab]; linarith
  have hE : Real.exp (-c * z) ≤ 1 := Real.exp_le_one_iff.2 (by nlinarith)
  have ht : t = z + r / c * Real.exp (-c * z) := by
    simp only [t, r, H]; field_simp; ring
  have e1 : c * (z - t) = -r * Real.exp (-c * z) := by rw [ht]; field_simp; ring
  have e2 : -r * Real.exp (-t * c) = c * (z - t) * Real.exp (c * (z - t)) := by
    have : -t * c = -c * z + c * (z - t) := by ring
    rw [this, Real.exp_add, ← mul_assoc, ← e1]
  rw [e2, mp.lambertw_eval]
  rw [e1]; nlinarith [Real.exp_pos (-c * z)]

theorem invcdf_spec (h : Valid a b c s) {p : ℝ} (h0 : 0 < p) (h1 : p < 1) : ∃ x ∈ Ioi loc,
    invcdf (fin p) (fin a) (fin b) (fin c) (fin loc) (fin s) = .ok (fin x) ∧ F a b c ((x - loc) / s) = p := by
  obtain ⟨z, hz0, e⟩ := exists_H h (t := -Real.log (1 - p)) (by have := Real.log_neg (show 0 < 1 - p by linarith) (by linarith); linarith)
  have hab : 0 < a + b := by linarith [h.1, h.2.1]
  have e' : Real.log (1 - p) = -H a b c z := by rw [e]; ring
  refine ⟨loc + s * z, by simpa using mul_pos h.2.2.2 hz0, ?_, ?_⟩
  · have := solve_eval h hz0.le
    simp only [invcdf, validateP_ok h0.le h1.le, validate_ok h, ok_bind, fin_add, fin_div _ hab.ne', fin_div _ h.2.2.1.ne',
      neg_fin, mp_log1p_neg h1, fin_sub, fin_mul, mp.exp_fin, pure_eq_ok, e'] at this ⊢
    rw [this]
    simp only [ok_bind, fin_div _ h.2.2.1.ne', mul_div_cancel_left₀ _ h.2.2.1.ne', fin_add, fin_mul]
    congr 4; ring
  · have hs := h.2.2.2.ne'
    rw [add_sub_cancel_left, mul_div_cancel_left₀ _ hs, F_eq hz0.le, e, neg_neg, Real.exp_log (by linarith)]; ring

theorem invsf_spec (h : Valid a b c s) {p : ℝ} (h0 : 0 < p) (h1 : p < 1) : ∃ x ∈ Ioi loc,
    invsf (fin p) (fin a) (fin b) (fin c) (fin loc) (fin s) = .ok (fin x) ∧ 1 - F a b c ((x - loc) / s) = p := by
  obtain ⟨z, hz0, e⟩ := exists_H h (t := -Real.log p) (by have := Real.log_neg h0 h1; linarith)
  have hab : 0 < a + b := by linarith [h.1, h.2.1]
  have e' : Real.log p = -H a b c z := by rw [e]; ring
  refine ⟨loc + s * z, by simpa using mul_pos h.2.2.2 hz0, ?_, ?_⟩
  · have := solve_eval h hz0.le
    simp only [invsf, validateP_ok h0.le h1.le, validate_ok h, ok_bind, fin_add, fin_div _ hab.ne', fin_div _ h.2.2.1.ne',
      neg_fin, mp.log_pos h0, fin_sub, fin_mul, mp.exp_fin, pure_eq_ok, e'] at this ⊢
    rw [this]
    simp only [ok_bind, fin_div _ h.2.2.1.ne', mul_div_cancel_left₀ _ h.2.2.1.ne', fin_add, fin_mul]
    congr 4; ring
  · have hs := h.2.2.2.ne'
    rw [add_sub_cancel_left, mul_div_cancel_left₀ _ hs, F_eq hz0.le, e, neg_neg, Real.exp_log h0]; ring

theorem F_mem (h : Valid a b c s) {x : ℝ} (hx : x ∈ Ioi loc) :
    0 < F a b c ((x - loc) / s) ∧ F a b c ((x - loc) / s) < 1 := by
  have hz0 : 0 < (x - loc) / s := div_pos (sub_pos.2 hx) h.2.2.2
  have := strictMonoOn_H h (mem_Ici.2 le_rfl) (mem_Ici.2 hz0.le) hz0
  rw [H_zero] at this
  rw [F_eq hz0.le]
  have h2 := Real.exp_pos (-H a b c ((x - loc) / s))
  have h3 := Real.exp_lt_one_iff.2 (show -H a b c ((x - loc) / s) < 0 by linarith)
  constructor <;> linarith

theorem injOn_F (h : Valid a b c s) : InjOn (fun x => F a b c ((x - loc) / s)) (Ioi loc) := by
  intro x hx y hy e
  have hx0 : 0 < (x - loc) / s := div_pos (sub_pos.2 hx) h.2.2.2
  have hy0 : 0 < (y - loc) / s := div_pos (sub_pos.2 hy) h.2.2.2
  simp only [F_eq hx0.le, F_eq hy0.le, sub_right_inj, Real.exp_eq_exp, neg_inj] at e
  have := (strictMonoOn_H h).injOn (mem_Ici.2 hx0.le) (mem_Ici.2 hy0.le) e
  have hs := h.2.2.2.ne'
  field_simp at this; linarith

end Mpsci.genexpon
