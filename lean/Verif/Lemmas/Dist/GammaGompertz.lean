import Verif.Model.Dist.GammaGompertz
import Verif.Lemmas.Common
import Verif.Lemmas.Fun.Powm1
import Verif.Lemmas.Ineq
import Verif.Lemmas.Moments
import Mathlib.Analysis.SpecialFunctions.Pow.Deriv
import Mathlib.Analysis.SpecialFunctions.Pow.Asymptotics
import Mathlib.Analysis.Convex.SpecificFunctions.Basic

namespace Mpsci.gamma_gompertz

open Classical Num common Filter Topology Set

variable {c b s : ℝ}

noncomputable def F (c b z : ℝ) : ℝ :=
  if z < 0 then 0 else 1 - (b / (b - 1 + Real.exp z)) ^ c
noncomputable def f (c b z : ℝ) : ℝ :=
  if z < 0 then 0 else c * Real.exp z * b ^ c / (b - 1 + Real.exp z) ^ (c + 1)
noncomputable def Q (c b p : ℝ) : ℝ := Real.log (1 + b * ((1 - p) ^ (-1 / c) - 1))

theorem validate_ok (hc : 0 < c) (hb : 0 < b) (hs : 0 < s) :
    validateParams (fin c) (fin b) (fin s) = .ok (fin c, fin b, fin s) := by
  simp [validateParams, hc.not_ge, hb.not_ge, hs.not_ge]
theorem validate_bad (h : ¬ (0 < c ∧ 0 < b ∧ 0 < s)) :
    validateParams (fin c) (fin b) (fin s) = .error .valueError := by
  by_cases hc : c ≤ 0
  · simp [validateParams, hc]
  by_cases hb : b ≤ 0
  · simp [validateParams, hc, hb]
  have : s ≤ 0 := by
    by_contra hs; exact h ⟨not_le.1 hc, not_le.1 hb, not_le.1 hs⟩
  simp [validateParams, hc, hb, this]

theorem den_pos (hb : 0 < b) {z : ℝ} (hz : 0 ≤ z) : 0 < b - 1 + Real.exp z := by
  have := Real.one_le_exp hz; linarith
theorem frac_pos (hb : 0 < b) {z : ℝ} (hz : 0 ≤ z) : 0 < b / (b - 1 + Real.exp z) :=
  div_pos hb (den_pos hb hz)

theorem exp_case (c z : ℝ) : (1 / (1 - 1 + Real.exp z)) ^ c = Real.exp (-c * z) := by
  rw [sub_self, zero_add, one_div, ← Real.exp_neg, Real.rpow_def_of_pos (Real.exp_pos _),
    Real.log_exp]; congr 1; ring

theorem sf_eval (hc : 0 < c) (hb : 0 < b) (hs : 0 < s) (x : ℝ) :
    sf (fin x) (fin c) (fin b) (fin s) = .ok (fin (1 - F c b (x / s))) := by
  by_cases h : x < 0
  · simp [sf, validate_ok hc hb hs, F, h, (scale_lt_zero hs).2 h]
  · have h' : ¬ x / s < 0 := fun h' => h ((scale_lt_zero hs).1 h')
    by_cases h1 : b = 1
    · subst h1
      simp only [sf, validate_ok hc hb hs, ok_bind, zero_def, one_def, fin_lt, h, if_false,
        fin_div _ hs.ne', fin_eq, if_true, neg_fin, fin_mul, mp.exp_fin, pure_eq_ok, F, h',
        sub_sub_cancel, exp_case]
    · simp only [sf, validate_ok hc hb hs, ok_bind, zero_def, one_def, fin_lt, h, if_false,
        fin_div _ hs.ne', fin_eq, h1, mp.exp_fin, fin_sub, fin_add,
        fin_div _ (den_pos hb (not_lt.1 h')).ne', mp.power_pos (frac_pos hb (not_lt.1 h')), F, h',
        sub_sub_cancel]
theorem cdf_eval (hc : 0 < c) (hb : 0 < b) (hs : 0 < s) (x : ℝ) :
    cdf (fin x) (fin c) (fin b) (fin s) = .ok (fin (F c b (x / s))) := by
  by_cases h : x < 0
  · simp [cdf, validate_ok hc hb hs, F, h, (scale_lt_zero hs).2 h]
  · have h' : ¬ x / s < 0 := fun h' => h ((scale_lt_zero hs).1 h')
    by_cases h1 : b = 1
    · subst h1
      simp only [cdf, validate_ok hc hb hs, ok_bind, zero_def, one_def, fin_lt, h, if_false,
        fin_div _ hs.ne', fin_eq, if_true, neg_fin, fin_mul, mp.expm1_fin, pure_eq_ok, F, h',
        exp_case, neg_sub]
    · have e : b + (Real.exp (x / s) - 1) = b - 1 + Real.exp (x / s) := by ring
      simp only [cdf, validate_ok hc hb hs, ok_bind, zero_def, one_def, fin_lt, h, if_false,
        fin_div _ hs.ne', fin_eq, h1, mp.expm1_fin, fin_add, e, neg_fin, pure_eq_ok,
        fin_div _ (den_pos hb (not_lt.1 h')).ne', mp.powm1_pos (frac_pos hb (not_lt.1 h')), F, h',
        neg_sub]
theorem pdf_eval (hc : 0 < c) (hb : 0 < b) (hs : 0 < s) (x : ℝ) :
    pdf (fin x) (fin c) (fin b) (fin s) = .ok (fin (f c b (x / s) / s)) := by
  by_cases h : x < 0
  · simp [pdf, validate_ok hc hb hs, f, h, (scale_lt_zero hs).2 h]
  · have h' : ¬ x / s < 0 := fun h' => h ((scale_lt_zero hs).1 h')
    have e : b + (Real.exp (x / s) - 1) = b - 1 + Real.exp (x / s) := by ring
    have hd := den_pos hb (not_lt.1 h')
    have : s * (b - 1 + Real.exp (x / s)) ^ (c + 1) ≠ 0 := by positivity
    simp only [pdf, validate_ok hc hb hs, ok_bind, zero_def, one_def, fin_lt, h, if_false,
      fin_div _ hs.ne', mp.exp_fin, mp.expm1_fin, fin_add, e, mp.power_pos hb, mp.power_pos hd,
      fin_mul, fin_div _ this, f, h']
    congr 2; rw [div_div, mul_comm s]
theorem f_pos (hc : 0 < c) (hb : 0 < b) {z : ℝ} (h : 0 ≤ z) : 0 < f c b z := by
  have := den_pos hb h
  rw [f, if_neg h.not_gt]; positivity
theorem f_zero (_ : 0 < c) (_ : 0 < b) (hs : 0 < s) : ∀ x, x ∉ Ici (0:ℝ) → f c b (x / s) / s = 0 := by
  intro x hx
  have : x / s < 0 := (scale_lt_zero hs).2 (not_le.1 hx)
  simp [f, this]
theorem logpdf_pos (hc : 0 < c) (hb : 0 < b) (hs : 0 < s) {x : ℝ} (h : 0 ≤ x) :
    logpdf (fin x) (fin c) (fin b) (fin s) = .ok (fin (Real.log (f c b (x / s) / s))) := by
  have hz : 0 ≤ x / s := div_nonneg h hs.le
  have hd := den_pos hb hz
  have e : b + (Real.exp (x / s) - 1) = b - 1 + Real.exp (x / s) := by ring
  rw [f, if_neg hz.not_gt, Real.log_div (by positivity) hs.ne',
    Real.log_div (by positivity) (by positivity), Real.log_mul (by positivity) (by positivity),
    Real.log_mul hc.ne' (by positivity), Real.log_exp, Real.log_rpow hb, Real.log_rpow hd]
  simp only [logpdf, validate_ok hc hb hs, ok_bind, zero_def, one_def, fin_lt, h.not_gt,
    if_false, fin_div _ hs.ne', mp.log_pos hc, mp.log_pos hb, mp.log_pos hs, mp.expm1_fin, fin_add,
    e, mp.log_pos hd, fin_sub, fin_mul, pure_eq_ok]
theorem logpdf_neg (hc : 0 < c) (hb : 0 < b) (hs : 0 < s) {x : ℝ} (h : x < 0) :
    logpdf (fin x) (fin c) (fin b) (fin s) = .ok ninf := by
  simp [logpdf, validate_ok hc hb hs, h]
theorem pdf_returns (hc : 0 < c) (hb : 0 < b) (hs : 0 < s) (x : ℝ) :
    Spec.Returns (pdf (fin x) (fin c) (fin b) (fin s)) := ⟨_, pdf_eval hc hb hs x⟩
theorem logpdf_returns (hc : 0 < c) (hb : 0 < b) (hs : 0 < s) (x : ℝ) :
    Spec.Returns (logpdf (fin x) (fin c) (fin b) (fin s)) := by
  rcases lt_or_ge x 0 with h | h
  · exact ⟨_, logpdf_neg hc hb hs h⟩
  · exact ⟨_, logpdf_pos hc hb hs h⟩

theorem isDist_std (hc : 0 < c) (hb : 0 < b) : IsDist (F c b) (f c b) := by
  have hca : ∀ z : ℝ, 0 ≤ z → ContinuousAt (fun z => 1 - (b / (b - 1 + Real.exp z)) ^ c) z := by
    intro z hz
    refine ContinuousAt.sub continuousAt_const (ContinuousAt.rpow_const ?_
      (Or.inl (frac_pos hb hz).ne'))
    exact continuousAt_const.div (by fun_prop) (den_pos hb hz).ne'
  refine isDist_Ioi (a := 0) (G := fun z => 1 - (b / (b - 1 + Real.exp z)) ^ c) ?_ ?_ ?_ ?_ ?_ ?_
    ?_ ?_ ?_
  · intro x hx
    rcases hx.eq_or_lt with rfl | hx
    · simp [F, hb.ne']
    · simp [F, hx]
  · intro x hx; rw [F, if_neg hx.le.not_gt]
  · simp [hb.ne']
  · exact (hca 0 le_rfl).continuousWithinAt
  · intro x hx; simp [f, hx]
  · exact (f_pos hc hb le_rfl).le
  · intro x hx
    have hd := den_pos hb hx.le
    have h1 : HasDerivAt (fun z : ℝ => b - 1 + Real.exp z) (Real.exp x) x :=
      (Real.hasDerivAt_exp x).const_add _
    have h2 : HasDerivAt (fun z : ℝ => b / (b - 1 + Real.exp z))
        ((0 * (b - 1 + Real.exp x) - b * Real.exp x) / (b - 1 + Real.exp x) ^ 2) x :=
      (hasDerivAt_const x b).div h1 hd.ne'
    have h3 := (h2.rpow_const (p := c) (Or.inl (frac_pos hb hx.le).ne')).const_sub 1
    refine h3.congr_deriv ?_
    rw [f, if_neg hx.le.not_gt, Real.div_rpow hb.le hd.le, Real.rpow_sub hb, Real.rpow_sub hd,
      Real.rpow_add hd, Real.rpow_one, Real.rpow_one]
    have : 0 < (b - 1 + Real.exp x) ^ c := by positivity
    field_simp
    ring
  · intro x hx; exact (f_pos hc hb hx.le).le
  · have h : Tendsto (fun z : ℝ => b - 1 + Real.exp z) atTop atTop :=
      tendsto_atTop_add_const_left _ _ Real.tendsto_exp_atTop
    have h2 : Tendsto (fun z : ℝ => b / (b - 1 + Real.exp z)) atTop (𝓝 0) :=
      tendsto_const_nhds.div_atTop h
    have h3 := (h2.rpow_const (p := c) (Or.inr hc.le)).const_sub 1
    simpa [Real.zero_rpow hc.ne'] using h3

theorem isDist (hc : 0 < c) (hb : 0 < b) (hs : 0 < s) :
    IsDist (fun x => F c b (x / s)) (fun x => f c b (x / s) / s) := (isDist_std hc hb).scale hs

theorem q_pos (hc : 0 < c) {p : ℝ} (h0 : 0 < p) (h1 : p < 1) : 0 < p ^ (-1 / c) - 1 := by
  have : 1 < p ^ (-1 / c) := Real.one_lt_rpow_of_pos_of_lt_one_of_neg h0 h1 (by
    rw [neg_div]; exact neg_neg_of_pos (one_div_pos.2 hc))
  linarith

theorem invcdf_eval (hc : 0 < c) (hb : 0 < b) (hs : 0 < s) {p : ℝ} (h0 : 0 < p) (h1 : p < 1) :
    invcdf (fin p) (fin c) (fin b) (fin s) = .ok (fin (s * Q c b p)) := by
  have hp : 0 < 1 - p := by linarith
  have hq := q_pos hc hp (by linarith)
  have h2 : -1 < b * ((1 - p) ^ (-1 / c) - 1) := by have := mul_pos hb hq; linarith
  simp only [invcdf, validateP_ok h0.le h1.le, validate_ok hc hb hs, ok_bind, one_def, neg_fin,
    fin_div _ hc.ne', fun_.pow1pm1_eval _ (show -1 < -p by linarith), ← sub_eq_add_neg, fin_mul,
    mp.log1p_pos h2, Q, pure_eq_ok]
theorem invsf_eval (hc : 0 < c) (hb : 0 < b) (hs : 0 < s) {p : ℝ} (h0 : 0 < p) (h1 : p < 1) :
    invsf (fin p) (fin c) (fin b) (fin s) = .ok (fin (s * Q c b (1 - p))) := by
  have hq := q_pos hc h0 h1
  have h2 : -1 < b * (p ^ (-1 / c) - 1) := by have := mul_pos hb hq; linarith
  simp only [invsf, validateP_ok h0.le h1.le, validate_ok hc hb hs, ok_bind, one_def, neg_fin,
    fin_div _ hc.ne', mp.powm1_pos h0, fin_mul, mp.log1p_pos h2, Q, pure_eq_ok, sub_sub_cancel]

theorem F_Q (hc : 0 < c) (hb : 0 < b) (_ : 0 < s) {p : ℝ} (h0 : 0 < p) (h1 : p < 1) :
    Q c b p ∈ Ioi (0:ℝ) ∧ F c b (Q c b p) = p := by
  have hp : 0 < 1 - p := by linarith
  have hq := q_pos hc hp (by linarith)
  have hr : 0 < (1 - p) ^ (-1 / c) := by positivity
  have h2 := mul_pos hb hq
  have hQ : 0 < Q c b p := Real.log_pos (by linarith)
  refine ⟨hQ, ?_⟩
  have e : b / (b - 1 + Real.exp (Q c b p)) = (1 - p) ^ (1 / c) := by
    rw [Q, Real.exp_log (by linarith), show b - 1 + (1 + b * ((1 - p) ^ (-1 / c) - 1)) =
      b * (1 - p) ^ (-1 / c) by ring, neg_div, Real.rpow_neg hp.le]
    have : 0 < (1 - p) ^ (1 / c) := by positivity
    field_simp
  rw [F, if_neg hQ.le.not_gt, e, fun_.rpow_inv_rpow hp.le hc.ne', sub_sub_cancel]

theorem Q_F (hc : 0 < c) (hb : 0 < b) (_ : 0 < s) {z : ℝ} (hz : z ∈ Ioi (0:ℝ)) :
    0 < F c b z ∧ F c b z < 1 ∧ Q c b (F c b z) = z := by
  have h : 0 < z := hz
  have hd := den_pos hb h.le
  have hfp := frac_pos hb h.le
  have h3 : b / (b - 1 + Real.exp z) < 1 := by
    rw [div_lt_one hd]; have := Real.one_lt_exp_iff.2 h; linarith
  rw [F, if_neg h.le.not_gt]
  have h4 : (b / (b - 1 + Real.exp z)) ^ c < 1 := Real.rpow_lt_one hfp.le h3 hc
  have h5 : 0 < (b / (b - 1 + Real.exp z)) ^ c := by positivity
  refine ⟨by linarith, by linarith, ?_⟩
  have e : c * (-1 / c) = -1 := by field_simp
  rw [Q, sub_sub_cancel, ← Real.rpow_mul hfp.le, e, Real.rpow_neg_one, inv_div,
    show 1 + b * ((b - 1 + Real.exp z) / b - 1) = Real.exp z by field_simp; ring, Real.log_exp]

theorem mode_eval (hc : 0 < c) (hb : 0 < b) (hs : 0 < s) : mode (fin c) (fin b) (fin s) =
    .ok (fin (s * (if b ≤ c + 1 then 0 else Real.log ((b - 1) / c)))) := by
  by_cases h : b ≤ c + 1
  · simp [mode, validate_ok hc hb hs, h]
  · have h1 : 0 < (b - 1) / c := div_pos (by linarith) hc
    simp [mode, validate_ok hc hb hs, h, fin_div _ hc.ne', mp.log_pos h1]

theorem f_le (hc : 0 < c) (hb : 0 < b) (z : ℝ) :
    f c b z ≤ f c b (if b ≤ c + 1 then 0 else Real.log ((b - 1) / c)) := by
  rcases lt_or_ge z 0 with hz | hz
  · have : f c b z = 0 := by simp [f, hz]
    rw [this]
    refine (f_pos hc hb ?_).le
    split_ifs with h
    · exact le_rfl
    · refine Real.log_nonneg ?_; rw [le_div_iff₀ hc]; linarith
  · have hd := den_pos hb hz
    split_ifs with h
    · have hu : 0 ≤ Real.exp z - 1 := by have := Real.one_le_exp hz; linarith
      have ht : 0 ≤ (Real.exp z - 1) / b := div_nonneg hu hb.le
      have hB := one_add_mul_self_le_rpow_one_add (s := (Real.exp z - 1) / b) (by linarith)
        (p := c + 1) (by linarith)
      have h1 : Real.exp z ≤ (1 + (Real.exp z - 1) / b) ^ (c + 1) := by
        refine le_trans ?_ hB
        have : b * ((Real.exp z - 1) / b) = Real.exp z - 1 := by field_simp
        nlinarith
      have e : 1 + (Real.exp z - 1) / b = (b - 1 + Real.exp z) / b := by field_simp; ring
      rw [e, Real.div_rpow hd.le hb.le, le_div_iff₀ (by positivity)] at h1
      rw [f, if_neg hz.not_gt, f, if_neg (lt_irrefl _), Real.exp_zero, mul_one, sub_add_cancel,
        div_le_div_iff₀ (by positivity) (by positivity)]
      have := mul_le_mul_of_nonneg_left h1 (show 0 ≤ c * b ^ c by positivity)
      linarith
    · have hb1 : 0 < b - 1 := by linarith
      have key : ∀ u : ℝ, 0 < u → c * u * b ^ c / (b - 1 + u) ^ (c + 1) =
          c * b ^ c / (b - 1) ^ c * ((u / (b - 1)) ^ (1:ℝ) / (1 + u / (b - 1)) ^ (1 + c)) := by
        intro u hu
        have e : 1 + u / (b - 1) = (b - 1 + u) / (b - 1) := by field_simp
        have h1 : 0 < b - 1 + u := by linarith
        have h2 : (0:ℝ) < (b - 1 + u) ^ (c + 1) := by positivity
        have h3 : (0:ℝ) < (b - 1) ^ c := by positivity
        rw [e, Real.rpow_one, Real.div_rpow h1.le hb1.le, add_comm 1 c, Real.rpow_add hb1, Real.rpow_one]
        field_simp
      have hm : 0 < (b - 1) / c := div_pos hb1 hc
      have hm0 : 0 ≤ Real.log ((b - 1) / c) := by
        refine Real.log_nonneg ?_; rw [le_div_iff₀ hc]; linarith
      rw [f, if_neg hz.not_gt, f, if_neg hm0.not_gt, Real.exp_log hm, key _ (Real.exp_pos z), key _ hm]
      refine mul_le_mul_of_nonneg_left ?_ (by positivity)
      have e : (b - 1) / c / (b - 1) = 1 / c := by field_simp
      rw [e]
      exact rpow_div_one_add_le one_pos hc (by positivity)

theorem tendsto_mul_exp_neg (hc : 0 < c) : Tendsto (fun z : ℝ => z * Real.exp (-c * z)) atTop (𝓝 0) := by
  have h := (Real.tendsto_pow_mul_exp_neg_atTop_nhds_zero 1).comp (tendsto_id.const_mul_atTop hc)
  have h2 := h.const_mul (1 / c)
  simp only [mul_zero] at h2
  refine h2.congr fun z => ?_
  simp only [Function.comp, id, pow_one]
  rw [show -(c * z) = -c * z by ring]; field_simp

theorem hasM_one (hc : 0 < c) : HasM (f c 1) (1 / c) := by
  have h := isDist_std hc one_pos
  have hf : ∀ z, 0 ≤ z → f c 1 z = c * Real.exp (-c * z) := by
    intro z hz
    rw [f, if_neg hz.not_gt, sub_self, zero_add, Real.one_rpow, mul_one,
      Real.rpow_def_of_pos (Real.exp_pos _), Real.log_exp, mul_div_assoc, ← Real.exp_sub]
    congr 2; ring
  have hH : ∀ x : ℝ, HasDerivAt (fun z : ℝ => -(z * Real.exp (-c * z)) - Real.exp (-c * z) / c)
      (x * (c * Real.exp (-c * x))) x := by
    intro x
    have h1 : HasDerivAt (fun z : ℝ => Real.exp (-c * z)) (Real.exp (-c * x) * (-c * 1)) x :=
      ((hasDerivAt_id x).const_mul (-c)).exp
    refine (((hasDerivAt_id x).mul h1).neg.sub (h1.div_const c)).congr_deriv ?_
    simp only [id]; field_simp; ring
  have h3 : Tendsto (fun z : ℝ => -(z * Real.exp (-c * z)) - Real.exp (-c * z) / c) atTop (𝓝 0) := by
    have e1 : Tendsto (fun z : ℝ => Real.exp (-c * z)) atTop (𝓝 0) :=
      Real.tendsto_exp_atBot.comp (tendsto_id.const_mul_atTop_of_neg (by linarith))
    simpa using (tendsto_mul_exp_neg hc).neg.sub (e1.div_const c)
  have h4 := integral_of_antideriv (g := fun x => x * f c 1 x) (fun x hx => by simp [f, hx])
    (hH 0).continuousAt.continuousWithinAt
    (fun x hx => by rw [hf x hx.le]; exact hH x)
    (fun x hx => mul_nonneg hx.le (f_pos hc one_pos hx.le).le) h3
  refine ⟨h.integrable, h.integral_one, h4.1, ?_⟩
  rw [h4.2]; simp

theorem hasM_c_one (hb : 0 < b) (hb1 : b ≠ 1) : HasM (f 1 b) (b / (b - 1) * Real.log b) := by
  have h := isDist_std one_pos hb
  have hb1' : b - 1 ≠ 0 := sub_ne_zero.2 hb1
  have hf : ∀ z, 0 ≤ z → f 1 b z = b * Real.exp z / (b - 1 + Real.exp z) ^ 2 := by
    intro z hz
    rw [f, if_neg hz.not_gt, Real.rpow_one, show (1:ℝ) + 1 = ((2:ℕ):ℝ) by norm_num, Real.rpow_natCast]
    ring
  have hH : ∀ x : ℝ, 0 ≤ x → HasDerivAt (fun z : ℝ => -(z * (b / (b - 1 + Real.exp z))) +
      b / (b - 1) * (z - Real.log (b - 1 + Real.exp z)))
      (x * (b * Real.exp x / (b - 1 + Real.exp x) ^ 2)) x := by
    intro x hx
    have hd := den_pos hb hx
    have h1 : HasDerivAt (fun z : ℝ => b - 1 + Real.exp z) (Real.exp x) x :=
      (Real.hasDerivAt_exp x).const_add _
    have h2 : HasDerivAt (fun z : ℝ => b / (b - 1 + Real.exp z))
        ((0 * (b - 1 + Real.exp x) - b * Real.exp x) / (b - 1 + Real.exp x) ^ 2) x :=
      (hasDerivAt_const x b).div h1 hd.ne'
    have h3 := h1.log hd.ne'
    refine (((hasDerivAt_id x).mul h2).neg.add
      (((hasDerivAt_id x).sub h3).const_mul (b / (b - 1)))).congr_deriv ?_
    simp only [id]; field_simp; ring
  have h3 : Tendsto (fun z : ℝ => -(z * (b / (b - 1 + Real.exp z))) +
      b / (b - 1) * (z - Real.log (b - 1 + Real.exp z))) atTop (𝓝 0) := by
    have e0 : Tendsto (fun z : ℝ => Real.exp (-z)) atTop (𝓝 0) := Real.tendsto_exp_neg_atTop_nhds_zero
    have e1 : Tendsto (fun z : ℝ => 1 + (b - 1) * Real.exp (-z)) atTop (𝓝 1) := by
      simpa using (e0.const_mul (b - 1)).const_add 1
    have e2 : Tendsto (fun z : ℝ => -(b * (z * Real.exp (-z)) / (1 + (b - 1) * Real.exp (-z))) -
        b / (b - 1) * Real.log (1 + (b - 1) * Real.exp (-z))) atTop (𝓝 0) := by
      have e3 := tendsto_mul_exp_neg one_pos
      simp only [neg_mul, one_mul] at e3
      have e4 := ((e3.const_mul b).div e1 one_ne_zero).neg
      have e5 := (e1.log one_ne_zero).const_mul (b / (b - 1))
      simpa using e4.sub e5
    refine e2.congr' ?_
    filter_upwards [eventually_ge_atTop 0] with z hz
    have hd := den_pos hb hz
    have e : b - 1 + Real.exp z = Real.exp z * (1 + (b - 1) * Real.exp (-z)) := by
      rw [mul_add, mul_left_comm, ← Real.exp_add]; simp; ring
    have hp : 0 < 1 + (b - 1) * Real.exp (-z) := by
      rw [e] at hd; exact (pos_iff_pos_of_mul_pos hd).1 (Real.exp_pos z)
    rw [e, Real.log_mul (Real.exp_pos z).ne' hp.ne', Real.log_exp, Real.exp_neg]
    rw [Real.exp_neg] at hp
    have := Real.exp_pos z
    field_simp; ring
  have h4 := integral_of_antideriv (g := fun x => x * f 1 b x) (fun x hx => by simp [f, hx])
    (hH 0 le_rfl).continuousAt.continuousWithinAt
    (fun x hx => by rw [hf x hx.le]; exact hH x hx.le)
    (fun x hx => mul_nonneg hx.le (f_pos one_pos hb hx.le).le) h3
  refine ⟨h.integrable, h.integral_one, h4.1, ?_⟩
  rw [h4.2]; simp

end Mpsci.gamma_gompertz
