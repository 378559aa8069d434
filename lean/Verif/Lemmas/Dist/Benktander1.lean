import Verif.Model.Dist.Benktander1
import Verif.Lemmas.Common
import Verif.Lemmas.Helpers
import Verif.Lemmas.Shape
import Verif.Lemmas.Inverts
import Verif.Spec.RootFinder

namespace Mpsci.benktander1

open Classical Num common Filter Topology Set MeasureTheory Spec

/-- The admissible parameters. -/
def Valid (a b : ℝ) : Prop := 0 < a ∧ 0 < b ∧ b ≤ a * (a + 1) / 2

/-- survival function and density as functions of `L = log x`, and the coefficient in the density -/
noncomputable def T (a b L : ℝ) : ℝ := (1 + 2 * (b * L) / a) * Real.exp (-((a + 1 + b * L) * L))
noncomputable def c (a b L : ℝ) : ℝ := (1 + 2 * (b * L) / a) * (1 + a + 2 * (b * L)) - 2 * b / a
noncomputable def k (a b L : ℝ) : ℝ := c a b L * Real.exp (-((2 + a + b * L) * L))
noncomputable def F (a b x : ℝ) : ℝ := if x < 1 then 0 else 1 - T a b (Real.log x)
noncomputable def f (a b x : ℝ) : ℝ := if x < 1 then 0 else k a b (Real.log x)

variable {a b : ℝ}

theorem validate_ok (h : Valid a b) : validateAB (fin a) (fin b) = .ok (fin a, fin b) := by
  simp [validateAB, h.1.not_ge, h.2.1.not_ge, h.2.2.not_gt, fin_div _ (two_ne_zero (α := ℝ))]
theorem validate_bad (h : ¬ Valid a b) : validateAB (fin a) (fin b) = .error .valueError := by
  by_cases h1 : a ≤ 0
  · simp [validateAB, h1]
  by_cases h2 : b ≤ 0
  · simp [validateAB, h1, h2]
  have h3 : a * (a + 1) / 2 < b := by
    by_contra h3; exact h ⟨not_le.1 h1, not_le.1 h2, not_lt.1 h3⟩
  simp [validateAB, h1, h2, h3, fin_div _ (two_ne_zero (α := ℝ))]

theorem rpow_eq {x : ℝ} (hx : 0 < x) (y : ℝ) : x ^ (-y) = Real.exp (-(y * Real.log x)) := by
  rw [Real.rpow_def_of_pos hx]; congr 1; ring

theorem cdf_eval (h : Valid a b) (x : ℝ) : cdf (fin x) (fin a) (fin b) = .ok (fin (F a b x)) := by
  by_cases hx : x < 1
  · simp [cdf, validate_ok h, F, hx]
  · have hx0 : 0 < x := by linarith
    simp only [cdf, validate_ok h, ok_bind, one_def, fin_lt, hx, if_false, mp.log_pos hx0, fin_mul, ofNat_def,
      fin_div _ h.1.ne', fin_add, neg_fin, mp.power_pos hx0, fin_sub, pure_eq_ok, F, T, rpow_eq hx0]
theorem sf_eval (h : Valid a b) (x : ℝ) : sf (fin x) (fin a) (fin b) = .ok (fin (1 - F a b x)) := by
  by_cases hx : x < 1
  · simp [sf, validate_ok h, F, hx]
  · have hx0 : 0 < x := by linarith
    simp only [sf, validate_ok h, ok_bind, one_def, fin_lt, hx, if_false, mp.log_pos hx0, fin_mul, ofNat_def,
      fin_div _ h.1.ne', fin_add, neg_fin, mp.power_pos hx0, pure_eq_ok, F, T, rpow_eq hx0, sub_sub_cancel]
theorem pdf_eval (h : Valid a b) (x : ℝ) : pdf (fin x) (fin a) (fin b) = .ok (fin (f a b x)) := by
  by_cases hx : x < 1
  · simp [pdf, validate_ok h, f, hx]
  · have hx0 : 0 < x := by linarith
    simp only [pdf, validate_ok h, ok_bind, one_def, fin_lt, hx, if_false, mp.log_pos hx0, fin_mul, ofNat_def,
      fin_div _ h.1.ne', fin_add, fin_sub, neg_fin, mp.power_pos hx0, pure_eq_ok, f, k, c, rpow_eq hx0]

theorem c_nonneg (h : Valid a b) {L : ℝ} (hL : 0 ≤ L) : 0 ≤ c a b L := by
  obtain ⟨ha, hb, h3⟩ := h
  have h4 : 2 * b / a ≤ a + 1 := by rw [div_le_iff₀ ha]; linarith
  have h5 : 0 ≤ b * L := by positivity
  have h6 : 0 ≤ 2 * (b * L) / a := by positivity
  unfold c
  nlinarith
theorem c_pos (h : Valid a b) {L : ℝ} (hL : 0 < L) : 0 < c a b L := by
  obtain ⟨ha, hb, h3⟩ := h
  have h4 : 2 * b / a ≤ a + 1 := by rw [div_le_iff₀ ha]; linarith
  have h5 : 0 < b * L := by positivity
  have h6 : 0 < 2 * (b * L) / a := by positivity
  unfold c
  nlinarith

theorem log_nonneg {x : ℝ} (hx : ¬ x < 1) : 0 ≤ Real.log x := Real.log_nonneg (not_lt.1 hx)

theorem f_nonneg (h : Valid a b) (x : ℝ) : 0 ≤ f a b x := by
  by_cases hx : x < 1
  · simp [f, hx]
  · rw [f, if_neg hx]; exact mul_nonneg (c_nonneg h (log_nonneg hx)) (Real.exp_pos _).le

theorem f_zero (h : Valid a b) (x : ℝ) (hx : x ∉ Ici (1:ℝ)) : f a b x = 0 := by
  rw [f, if_pos (not_le.1 hx)]

theorem logpdf_pos (h : Valid a b) {x : ℝ} (hx : ¬ x < 1) (hc : 0 < c a b (Real.log x)) :
    logpdf (fin x) (fin a) (fin b) = .ok (fin (Real.log (f a b x))) := by
  have hx0 : 0 < x := by linarith
  have hc' := hc
  rw [c] at hc'
  simp only [logpdf, validate_ok h, ok_bind, one_def, fin_lt, hx, if_false, mp.log_pos hx0, fin_mul, ofNat_def,
      fin_div _ h.1.ne', fin_add, fin_sub, pure_eq_ok, mp.log_pos hc', f, k]
  rw [Real.log_mul hc.ne' (Real.exp_pos _).ne', Real.log_exp, c]; congr 2
theorem logpdf_zero (h : Valid a b) {x : ℝ} (hx : ¬ x < 1) (hc : c a b (Real.log x) = 0) :
    logpdf (fin x) (fin a) (fin b) = .ok ninf := by
  have hx0 : 0 < x := by linarith
  rw [c] at hc
  simp only [logpdf, validate_ok h, ok_bind, one_def, fin_lt, hx, if_false, mp.log_pos hx0, fin_mul, ofNat_def,
      fin_div _ h.1.ne', fin_add, fin_sub, pure_eq_ok, hc, mp.log_zero]
  rfl
theorem logpdf_out (h : Valid a b) {x : ℝ} (hx : x < 1) : logpdf (fin x) (fin a) (fin b) = .ok ninf := by
  simp [logpdf, validate_ok h, hx]

theorem pdf_returns (h : Valid a b) (x : ℝ) : Returns (pdf (fin x) (fin a) (fin b)) := ⟨_, pdf_eval h x⟩
theorem logpdf_returns (h : Valid a b) (x : ℝ) : Returns (logpdf (fin x) (fin a) (fin b)) := by
  by_cases hx : x < 1
  · exact ⟨_, logpdf_out h hx⟩
  · rcases (c_nonneg h (log_nonneg hx)).eq_or_lt with e | e
    · exact ⟨_, logpdf_zero h hx e.symm⟩
    · exact ⟨_, logpdf_pos h hx e⟩

theorem hasDerivAt_T (ha : a ≠ 0) (L : ℝ) :
    HasDerivAt (T a b) (-(c a b L * Real.exp (-((a + 1 + b * L) * L)))) L := by
  have h1 : HasDerivAt (fun L => 1 + 2 * (b * L) / a) (2 * b / a) L := by
    refine (((((hasDerivAt_id' L).const_mul b).const_mul 2).div_const a).const_add 1).congr_deriv ?_; ring
  have h2 : HasDerivAt (fun L => Real.exp (-((a + 1 + b * L) * L)))
      (Real.exp (-((a + 1 + b * L) * L)) * -(a + 1 + 2 * (b * L))) L := by
    refine ((((((hasDerivAt_id' L).const_mul b).const_add (a + 1)).mul (hasDerivAt_id' L)).neg).exp).congr_deriv ?_
    simp only [Pi.neg_apply, Pi.mul_apply]; ring
  refine (h1.mul h2).congr_deriv ?_
  unfold c; ring

theorem hasDerivAt_comp {H : ℝ → ℝ} {H' x : ℝ} (hx : 0 < x) (h : HasDerivAt H H' (Real.log x)) :
    HasDerivAt (fun x => H (Real.log x)) (H' * Real.exp (-Real.log x)) x := by
  refine (h.comp x (Real.hasDerivAt_log hx.ne')).congr_deriv ?_
  rw [Real.exp_neg, Real.exp_log hx]

theorem hasDerivAt_TL (h : Valid a b) {x : ℝ} (hx : 1 ≤ x) :
    HasDerivAt (fun x => T a b (Real.log x)) (-f a b x) x := by
  refine (hasDerivAt_comp (by linarith) (hasDerivAt_T h.1.ne' _)).congr_deriv ?_
  rw [f, if_neg hx.not_gt, k, neg_mul, mul_assoc, ← Real.exp_add]
  congr 3; ring

theorem tendsto_quad (k : ℝ) (hb : 0 < b) : Tendsto (fun L => Real.exp (k * L - b * L ^ 2)) atTop (𝓝 0) := by
  refine Real.tendsto_exp_atBot.comp ?_
  have h1 : Tendsto (fun L : ℝ => k - b * L) atTop atBot :=
    tendsto_atBot_add_const_left atTop k (tendsto_neg_atTop_atBot.comp (tendsto_id.const_mul_atTop hb))
  refine (tendsto_id.atTop_mul_atBot₀ h1).congr fun L => ?_
  simp only [id]; ring

theorem T_bound (h : Valid a b) {L : ℝ} (hL : 0 ≤ L) : 0 ≤ T a b L ∧ T a b L ≤ Real.exp (0 * L - b * L ^ 2) := by
  obtain ⟨ha, hb, h3⟩ := h
  have h4 : 2 * b / a ≤ a + 1 := by rw [div_le_iff₀ ha]; linarith
  have h0 : 0 ≤ 1 + 2 * (b * L) / a := by positivity
  have h5 : 1 + 2 * (b * L) / a ≤ Real.exp ((a + 1) * L) := by
    have e : 2 * (b * L) / a = 2 * b / a * L := by ring
    have := mul_le_mul_of_nonneg_right h4 hL
    linarith [Real.add_one_le_exp ((a + 1) * L)]
  refine ⟨mul_nonneg h0 (Real.exp_pos _).le, ?_⟩
  calc T a b L ≤ Real.exp ((a + 1) * L) * Real.exp (-((a + 1 + b * L) * L)) :=
        mul_le_mul_of_nonneg_right h5 (Real.exp_pos _).le
    _ = _ := by rw [← Real.exp_add]; congr 1; ring

/-- `e^(kL) T(L) → 0` -/
theorem tendsto_T (h : Valid a b) (k : ℝ) : Tendsto (fun L => Real.exp (k * L) * T a b L) atTop (𝓝 0) := by
  refine squeeze_zero' ?_ ?_ (tendsto_quad k h.2.1)
  · filter_upwards [eventually_ge_atTop 0] with L hL
    exact mul_nonneg (Real.exp_pos _).le (T_bound h hL).1
  · filter_upwards [eventually_ge_atTop 0] with L hL
    calc _ ≤ Real.exp (k * L) * Real.exp (0 * L - b * L ^ 2) := mul_le_mul_of_nonneg_left (T_bound h hL).2 (Real.exp_pos _).le
      _ = _ := by rw [← Real.exp_add]; congr 1; ring

theorem isDist (h : Valid a b) : IsDist (F a b) (f a b) := by
  refine isDist_Ioi (a := 1) (G := fun x => 1 - T a b (Real.log x)) (fun x hx => ?_)
    (fun x hx => by rw [F, if_neg hx.not_gt]) (by simp [T]) ?_ (fun x hx => by rw [f, if_pos hx]) (f_nonneg h _)
    (fun x hx => ?_) (fun x _ => f_nonneg h x) ?_
  · rcases hx.eq_or_lt with rfl | hx
    · simp [F, T]
    · rw [F, if_pos hx]
  · exact ((hasDerivAt_TL h le_rfl).const_sub 1).continuousAt.continuousWithinAt
  · refine ((hasDerivAt_TL h hx.le).const_sub 1).congr_deriv (neg_neg _)
  · have := ((tendsto_T h 0).comp Real.tendsto_log_atTop).const_sub 1
    simp only [Function.comp_def, zero_mul, Real.exp_zero, one_mul, sub_zero] at this
    exact this

theorem strictAntiOn_T (h : Valid a b) : StrictAntiOn (T a b) (Ici 0) := by
  refine strictAntiOn_of_deriv_neg (convex_Ici _) (fun x _ => (hasDerivAt_T h.1.ne' x).continuousAt.continuousWithinAt)
    fun L hL => ?_
  rw [interior_Ici] at hL
  rw [(hasDerivAt_T h.1.ne' L).deriv, neg_lt_zero]
  exact mul_pos (c_pos h hL) (Real.exp_pos _)

theorem F_mem (h : Valid a b) {x : ℝ} (hx : x ∈ Ioi (1:ℝ)) :
    F a b x = 1 - T a b (Real.log x) ∧ 0 < F a b x ∧ F a b x < 1 := by
  have hL := Real.log_pos hx
  have e : F a b x = 1 - T a b (Real.log x) := by rw [F, if_neg (not_lt.2 hx.le)]
  refine ⟨e, ?_, ?_⟩
  · have := strictAntiOn_T h (mem_Ici.2 le_rfl) hL.le hL
    have h0 : T a b 0 = 1 := by simp [T]
    rw [e]; linarith
  · have : 0 < T a b (Real.log x) := by
      have := h.1; have := h.2.1
      unfold T; positivity
    rw [e]; linarith

theorem injOn_F (h : Valid a b) : InjOn (F a b) (Ioi 1) := by
  intro x hx y hy e
  rw [(F_mem h hx).1, (F_mem h hy).1] at e
  have := (strictAntiOn_T h).injOn (mem_Ici.2 (Real.log_pos hx).le) (mem_Ici.2 (Real.log_pos hy).le) (by linarith)
  exact Real.log_injOn_pos (show (0:ℝ) < x from lt_trans one_pos hx) (show (0:ℝ) < y from lt_trans one_pos hy) this

/-! ### Inverses -/

/-- the positive solution of `b z² + s z + w = 0` -/
noncomputable def zroot (b s w : ℝ) : ℝ := (-s + Real.sqrt (s ^ 2 - 4 * b * w)) / (2 * b)

theorem zroot_eq (hb : 0 < b) {s w : ℝ} (hw : w < 0) : b * zroot b s w ^ 2 + s * zroot b s w + w = 0 := by
  have hd : 0 ≤ s ^ 2 - 4 * b * w := by nlinarith [sq_nonneg s]
  have := Real.sq_sqrt hd
  unfold zroot
  generalize Real.sqrt (s ^ 2 - 4 * b * w) = S at *
  field_simp
  linear_combination this

theorem zroot_pos (hb : 0 < b) {s w : ℝ} (hw : w < 0) : 0 < zroot b s w := by
  have hd : s ^ 2 < s ^ 2 - 4 * b * w := by nlinarith
  have : |s| < Real.sqrt (s ^ 2 - 4 * b * w) := by
    rw [← Real.sqrt_sq_eq_abs]; exact Real.sqrt_lt_sqrt (sq_nonneg s) hd
  have := (le_abs_self s).trans_lt this
  unfold zroot
  exact div_pos (by linarith) (by linarith)

theorem zroot_lt (hb : 0 < b) {s t w : ℝ} (hw : w < 0) (hst : s < t) : zroot b t w < zroot b s w := by
  have e1 := zroot_eq hb (s := s) hw
  have e2 := zroot_eq hb (s := t) hw
  have p1 := zroot_pos hb (s := s) hw
  have p2 := zroot_pos hb (s := t) hw
  generalize zroot b s w = x at *
  generalize zroot b t w = y at *
  by_contra hc
  push Not at hc
  have h1 : x * (b * x + s) = -w := by linarith [e1, sq x]
  have h2 : y * (b * y + t) = -w := by linarith [e2, sq y]
  have h3 : b * x + s < b * y + t := by nlinarith
  have h4 : 0 < b * x + s := by
    by_contra hn
    have := mul_nonpos_of_nonneg_of_nonpos p1.le (not_lt.1 hn)
    linarith
  nlinarith

variable {findroot : (Num → M Num) → Num → Num → M Num}

theorem solve_spec (hr : RootFinder findroot) (h : Valid a b) {w : ℝ} (hw : w < 0) :
    ∃ x ∈ Ioi (1:ℝ), solve findroot (fin w) (fin a) (fin b) = .ok (fin x) ∧ F a b x = 1 - Real.exp w := by
  obtain ⟨ha, hb, h3⟩ := h
  have hd : ∀ s : ℝ, 0 ≤ s ^ 2 - 4 * b * w := fun s => by nlinarith [sq_nonneg s]
  have h2b : 2 * b ≠ 0 := by positivity
  set g : ℝ → ℝ := fun z => Real.log (1 + 2 * b / a * z) - (a + 1 + b * z) * z - w with hg
  have hl0 := zroot_pos hb (s := a + 1) hw
  have hpos : ∀ z, 0 ≤ z → 0 < 1 + 2 * b / a * z := fun z hz => by positivity
  obtain ⟨r, hr1, hr2, hr3⟩ := hr (fun z => do
      return (← mp.log (1 + (← (2 * fin b) /. fin a) * z)) - (fin a + 1 + fin b * z) * z - fin w) g
    (zroot b (a + 1) w) (zroot b (a + 1 - 2 * b / a) w)
    (zroot_lt hb hw (by have : 0 < 2 * b / a := by positivity
                        linarith))
    (fun z hz => by
      simp only [ofNat_def, fin_mul, fin_div _ ha.ne', ok_bind, one_def, fin_add,
        mp.log_pos (hpos z (hl0.le.trans hz.1)), fin_sub, pure_eq_ok, hg])
    (by
      refine ContinuousOn.sub (ContinuousOn.sub (ContinuousOn.log (by fun_prop) fun z hz =>
        (hpos z (hl0.le.trans hz.1)).ne') (by fun_prop)) (by fun_prop))
    (Or.inr ⟨by
      have e := zroot_eq hb (s := a + 1) hw
      have : 0 ≤ Real.log (1 + 2 * b / a * zroot b (a + 1) w) := Real.log_nonneg (by
        have : 0 ≤ 2 * b / a * zroot b (a + 1) w := by positivity
        linarith)
      simp only [hg]
      nlinarith, by
      have e := zroot_eq hb (s := a + 1 - 2 * b / a) hw
      have p := zroot_pos hb (s := a + 1 - 2 * b / a) hw
      have := Real.log_le_sub_one_of_pos (hpos _ p.le)
      simp only [hg]
      nlinarith⟩)
  have hr0 : 0 < r := hl0.trans_le hr1.1
  refine ⟨Real.exp r, Real.one_lt_exp_iff.2 hr0, ?_, ?_⟩
  · simp only [solve, one_def, fin_add, neg_fin, mp.ipow_fin, ofNat_def, fin_mul, fin_sub,
      mp.sqrt_nonneg (hd _), ok_bind, fin_div _ h2b, fin_div _ ha.ne', pure_eq_ok]
    simp only [ofNat_def, fin_mul, one_def, fin_add, fin_div _ ha.ne', ok_bind, pure_eq_ok] at hr2
    simp only [zroot] at hr2
    rw [hr2]; rfl
  · rw [F, if_neg (not_lt.2 (Real.one_lt_exp_iff.2 hr0).le), Real.log_exp, T]
    congr 1
    have h1 := hpos r hr0.le
    simp only [hg] at hr3
    have : w = Real.log (1 + 2 * b / a * r) + -((a + 1 + b * r) * r) := by linarith
    rw [this, Real.exp_add, Real.exp_log h1]; congr 1; ring

theorem invcdf_spec (hr : RootFinder findroot) (h : Valid a b) {p : ℝ} (h0 : 0 < p) (h1 : p < 1) :
    ∃ x ∈ Ioi (1:ℝ), invcdf findroot (fin p) (fin a) (fin b) = .ok (fin x) ∧ F a b x = p := by
  have hw : Real.log (1 - p) < 0 := Real.log_neg (by linarith) (by linarith)
  obtain ⟨x, hx, e1, e2⟩ := solve_spec hr h hw
  rw [Real.exp_log (by linarith), sub_sub_cancel] at e2
  refine ⟨x, hx, ?_, e2⟩
  simp [invcdf, validateP_ok h0.le h1.le, validate_ok h, h0.ne', h1.ne, mp_log1p_neg h1, e1]

theorem invsf_spec (hr : RootFinder findroot) (h : Valid a b) {p : ℝ} (h0 : 0 < p) (h1 : p < 1) :
    ∃ x ∈ Ioi (1:ℝ), invsf findroot (fin p) (fin a) (fin b) = .ok (fin x) ∧ 1 - F a b x = p := by
  have hw : Real.log p < 0 := Real.log_neg h0 h1
  obtain ⟨x, hx, e1, e2⟩ := solve_spec hr h hw
  rw [Real.exp_log h0] at e2
  refine ⟨x, hx, ?_, by linarith⟩
  simp [invsf, validateP_ok h0.le h1.le, validate_ok h, h0.ne', h1.ne, mp.log_pos h0, e1]

/-! ### Mode -/

theorem hasDerivAt_k (ha : a ≠ 0) (L : ℝ) : HasDerivAt (k a b)
    (1 / a * ((a + 2 * (b * L) + 1) * (6 * b - (a + 2 * (b * L)) * (a + 2 * (b * L) + 2))) *
      Real.exp (-((2 + a + b * L) * L))) L := by
  have h1 : HasDerivAt (c a b) (2 * b / a * (1 + a + 2 * (b * L)) + (1 + 2 * (b * L) / a) * (2 * b)) L := by
    have d : HasDerivAt (fun L => 2 * (b * L)) (2 * b) L := by
      refine (((hasDerivAt_id' L).const_mul b).const_mul 2).congr_deriv (by ring)
    exact (((d.div_const a).const_add 1).mul (d.const_add (1 + a))).sub_const _
  have h2 : HasDerivAt (fun L => Real.exp (-((2 + a + b * L) * L)))
      (Real.exp (-((2 + a + b * L) * L)) * -(2 + a + 2 * (b * L))) L := by
    refine ((((((hasDerivAt_id' L).const_mul b).const_add (2 + a)).mul (hasDerivAt_id' L)).neg).exp).congr_deriv ?_
    simp only [Pi.neg_apply, Pi.mul_apply]; ring
  refine (h1.mul h2).congr_deriv ?_
  unfold c; field_simp; ring

/-- Where the density is largest, as a value of `log x`. -/
noncomputable def Lmode (a b : ℝ) : ℝ :=
  if a * (a + 2) / 6 < b then (-(a + 1) + Real.sqrt (6 * b + 1)) / (2 * b) else 0

theorem k_le (h : Valid a b) {L : ℝ} (hL : 0 ≤ L) : 0 ≤ Lmode a b ∧ k a b L ≤ k a b (Lmode a b) := by
  obtain ⟨ha, hb, h3⟩ := h
  have hs := Real.sq_sqrt (show (0:ℝ) ≤ 6 * b + 1 by positivity)
  have hs0 := Real.sqrt_nonneg (6 * b + 1)
  have hm : 0 ≤ Lmode a b ∧ (0 < Lmode a b → a + 2 * (b * Lmode a b) = -1 + Real.sqrt (6 * b + 1)) ∧
      6 * b ≤ (a + 2 * (b * Lmode a b)) * (a + 2 * (b * Lmode a b) + 2) := by
    by_cases hc : a * (a + 2) / 6 < b
    · rw [Lmode, if_pos hc]
      have h1 : a + 1 ≤ Real.sqrt (6 * b + 1) := by
        refine Real.le_sqrt_of_sq_le ?_; nlinarith
      have e : a + 2 * (b * ((-(a + 1) + Real.sqrt (6 * b + 1)) / (2 * b))) = -1 + Real.sqrt (6 * b + 1) := by
        field_simp; ring
      refine ⟨div_nonneg (by linarith) (by positivity), fun _ => e, ?_⟩
      rw [e]; nlinarith
    · rw [Lmode, if_neg hc]
      exact ⟨le_rfl, fun h => absurd h (lt_irrefl _), by nlinarith⟩
  obtain ⟨h0, h1, h2⟩ := hm
  refine ⟨h0, le_of_unimodal (fun x => hasDerivAt_k ha.ne' x) h0 (fun x hx hxm => ?_) (fun x hx => ?_) hL⟩
  · have e := h1 (hx.trans_lt hxm)
    have h4 : a + 2 * (b * x) ≤ -1 + Real.sqrt (6 * b + 1) := by
      rw [← e]
      have := mul_le_mul_of_nonneg_left hxm.le hb.le
      linarith
    have hy : 0 < a + 2 * (b * x) := by positivity
    generalize a + 2 * (b * x) = y at *
    have : y * (y + 2) ≤ 6 * b := by nlinarith
    have : 0 ≤ 6 * b - y * (y + 2) := by linarith
    positivity
  · have h4 : a + 2 * (b * Lmode a b) ≤ a + 2 * (b * x) := by
      have := mul_le_mul_of_nonneg_left hx.le hb.le
      linarith
    have hy : 0 < a + 2 * (b * Lmode a b) := by positivity
    generalize a + 2 * (b * x) = y at *
    generalize a + 2 * (b * Lmode a b) = y0 at *
    have h5 : 6 * b - y * (y + 2) ≤ 0 := by nlinarith
    have h6 : (y + 1) * (6 * b - y * (y + 2)) ≤ 0 := mul_nonpos_of_nonneg_of_nonpos (by linarith) h5
    have := mul_nonpos_of_nonneg_of_nonpos (a := 1 / a) (by positivity) h6
    exact mul_nonpos_of_nonpos_of_nonneg this (Real.exp_pos _).le

/-! ### Moments -/

theorem k_eq (L : ℝ) : c a b L * Real.exp (-((a + 1 + b * L) * L)) = Real.exp L * k a b L := by
  rw [k, mul_left_comm, ← Real.exp_add]; congr 2; ring

/-- The `n`-th moment, by an antiderivative of `n e^(nL) T(L)`. -/
theorem moment (h : Valid a b) {n : ℕ} {P : ℝ → ℝ} {l : ℝ}
    (hP : ∀ L, HasDerivAt P (n * (Real.exp (n * L) * T a b L)) L) (hl : Tendsto P atTop (𝓝 l)) :
    Integrable (fun x => x ^ n * f a b x) ∧ ∫ x, x ^ n * f a b x = l + 1 - P 0 := by
  have hd : ∀ x, 1 ≤ x → HasDerivAt (fun x => P (Real.log x) - Real.exp (n * Real.log x) * T a b (Real.log x))
      (x ^ n * f a b x) x := by
    intro x hx
    have hx0 : 0 < x := by linarith
    have d1 : HasDerivAt (fun L : ℝ => Real.exp (n * L)) (Real.exp (n * Real.log x) * n) (Real.log x) := by
      simpa using ((hasDerivAt_id' (Real.log x)).const_mul (n:ℝ)).exp
    have d := (hP (Real.log x)).sub (d1.mul (hasDerivAt_T (b := b) h.1.ne' (Real.log x)))
    refine (hasDerivAt_comp (H := fun L => P L - Real.exp (n * L) * T a b L) hx0 d).congr_deriv ?_
    rw [f, if_neg hx.not_gt, k_eq, Real.exp_neg, Real.exp_nat_mul, Real.exp_log hx0]
    field_simp
    ring
  have := integral_Ioi_antideriv (a := 1) (l := l - 0) (g := fun x => x ^ n * f a b x)
    (H := fun x => P (Real.log x) - Real.exp (n * Real.log x) * T a b (Real.log x))
    (fun x hx => by simp [f, hx]) (hd 1 le_rfl).continuousAt.continuousWithinAt (fun x hx => hd x hx.le)
    (fun x hx => mul_nonneg (pow_nonneg (by linarith) _) (f_nonneg h x))
    ((hl.sub (tendsto_T h n)).comp Real.tendsto_log_atTop)
  refine ⟨this.1, this.2.trans ?_⟩
  simp [T]; ring

theorem moment1 (h : Valid a b) : Integrable (fun x => x ^ 1 * f a b x) ∧ ∫ x, x ^ 1 * f a b x = 1 + 1 / a := by
  have ha := h.1
  have := moment h (n := 1) (P := fun L => -(1 / a) * Real.exp (-a * L - b * L ^ 2)) (l := -(1 / a) * 0) (fun L => by
    refine (((((hasDerivAt_id' L).const_mul (-a)).sub ((hasDerivAt_pow 2 L).const_mul b)).exp).const_mul
      (-(1 / a))).congr_deriv ?_
    simp only [Pi.sub_apply, Nat.cast_ofNat, Nat.cast_one, one_mul, T]
    rw [mul_left_comm (Real.exp L), ← Real.exp_add, show L + -((a + 1 + b * L) * L) = -a * L - b * L ^ 2 by ring]
    field_simp
    ring) ((tendsto_quad (-a) h.2.1).const_mul _)
  refine ⟨this.1, this.2.trans ?_⟩
  simp

/-- `∫_0^∞ exp(-(a-1)L - bL²) dL`, twice, times `sqrt(b)` -/
noncomputable def K (a b : ℝ) : ℝ := Real.exp (((a - 1) / (2 * Real.sqrt b)) ^ 2) * Real.sqrt Real.pi *
  (1 - erfR ((a - 1) / (2 * Real.sqrt b)))

theorem moment2 (h : Valid a b) : Integrable (fun x => x ^ 2 * f a b x) ∧
    ∫ x, x ^ 2 * f a b x = 1 + 2 / a + K a b / (a * Real.sqrt b) := by
  have ha := h.1
  have hb := h.2.1
  have hsb : 0 < Real.sqrt b := Real.sqrt_pos.2 hb
  have hsb2 := Real.sq_sqrt hb.le
  have hpi : 0 < Real.sqrt Real.pi := Real.sqrt_pos.2 Real.pi_pos
  have hlim : Tendsto (fun L : ℝ => Real.sqrt b * L + (a - 1) / (2 * Real.sqrt b)) atTop atTop :=
    tendsto_atTop_add_const_right _ _ (tendsto_id.const_mul_atTop hsb)
  have := moment h (n := 2) (P := fun L => -(2 / a) * Real.exp ((1 - a) * L - b * L ^ 2)
      + Real.exp (((a - 1) / (2 * Real.sqrt b)) ^ 2) * Real.sqrt Real.pi / (a * Real.sqrt b) *
        erfR (Real.sqrt b * L + (a - 1) / (2 * Real.sqrt b)))
    (l := -(2 / a) * 0 + Real.exp (((a - 1) / (2 * Real.sqrt b)) ^ 2) * Real.sqrt Real.pi / (a * Real.sqrt b) * 1)
    (fun L => by
    have d1 := ((((hasDerivAt_id' L).const_mul (1 - a)).sub ((hasDerivAt_pow 2 L).const_mul b)).exp).const_mul
      (-(2 / a))
    have d2 := ((hasDerivAt_erfR (Real.sqrt b * L + (a - 1) / (2 * Real.sqrt b))).comp L
      (((hasDerivAt_id' L).const_mul (Real.sqrt b)).add_const _)).const_mul
      (Real.exp (((a - 1) / (2 * Real.sqrt b)) ^ 2) * Real.sqrt Real.pi / (a * Real.sqrt b))
    refine (d1.add d2).congr_deriv ?_
    simp only [Pi.sub_apply, Nat.cast_ofNat, T]
    have e1 : Real.exp (2 * L) * ((1 + 2 * (b * L) / a) * Real.exp (-((a + 1 + b * L) * L))) =
        (1 + 2 * (b * L) / a) * Real.exp ((1 - a) * L - b * L ^ 2) := by
      rw [mul_left_comm, ← Real.exp_add]; congr 2; ring
    have e2 : Real.exp (((a - 1) / (2 * Real.sqrt b)) ^ 2) *
        Real.exp (-(Real.sqrt b * L + (a - 1) / (2 * Real.sqrt b)) ^ 2) = Real.exp ((1 - a) * L - b * L ^ 2) := by
      rw [← Real.exp_add]; congr 1
      have : Real.sqrt b * L * ((a - 1) / (2 * Real.sqrt b)) = L * (a - 1) / 2 := by field_simp
      linear_combination -L ^ 2 * hsb2 - 2 * this
    rw [e1, ← e2]
    generalize Real.exp (((a - 1) / (2 * Real.sqrt b)) ^ 2) = X
    generalize Real.exp (-(Real.sqrt b * L + (a - 1) / (2 * Real.sqrt b)) ^ 2) = Y
    field_simp
    ring)
    (((tendsto_quad (1 - a) h.2.1).const_mul _).add ((erfR_atTop.comp hlim).const_mul _))
  refine ⟨this.1, this.2.trans ?_⟩
  simp [K]; ring

theorem hasMV (h : Valid a b) : HasMV (f a b) (1 + 1 / a) ((-Real.sqrt b + a * K a b) / (a ^ 2 * Real.sqrt b)) where
  int0 := (isDist h).integrable
  one := (isDist h).integral_one
  int1 := by simpa using (moment1 h).1
  mean := by simpa using (moment1 h).2
  int2 := (moment2 h).1
  second := by
    have ha := h.1
    have hsb : 0 < Real.sqrt b := Real.sqrt_pos.2 h.2.1
    rw [(moment2 h).2]; field_simp; ring

end Mpsci.benktander1
