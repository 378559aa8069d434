import Verif.Model.Dist.Kumaraswamy
import Verif.Lemmas.Common
import Verif.Lemmas.Fun.Powm1
import Verif.Lemmas.Ineq
import Verif.Lemmas.Moments
import Mathlib.Analysis.SpecialFunctions.Pow.Deriv

namespace Mpsci.kumaraswamy

open Classical Num common Filter Topology Set MeasureTheory

variable {a b : ℝ}

noncomputable def F (a b x : ℝ) : ℝ := if x < 0 then 0 else if 1 < x then 1 else 1 - (1 - x ^ a) ^ b
noncomputable def f (a b x : ℝ) : ℝ :=
  if x < 0 ∨ 1 < x then 0 else a * b * x ^ (a - 1) * (1 - x ^ a) ^ (b - 1)
noncomputable def Q (a b p : ℝ) : ℝ := (1 - (1 - p) ^ (1 / b)) ^ (1 / a)

/-- The ends at which `pdf` is infinite. -/
def Ends (a b : ℝ) : Set ℝ := {x | (x = 0 ∧ a < 1) ∨ (x = 1 ∧ b < 1)}

theorem ends_finite : (Ends a b).Finite := by
  refine (Set.toFinite {(0:ℝ), 1}).subset ?_
  rintro x (h | h)
  · simp [h.1]
  · simp [h.1]

theorem validate_ok (ha : 0 < a) (hb : 0 < b) :
    validateAB (fin a) (fin b) = .ok (fin a, fin b) := by
  simp [validateAB, ha.not_ge, hb.not_ge]
theorem validate_bad (h : ¬ (0 < a ∧ 0 < b)) :
    validateAB (fin a) (fin b) = .error .valueError := by
  rcases not_and_pos h with h | h <;> simp [validateAB, h]

theorem rpow_le {x : ℝ} (ha : 0 < a) (h0 : 0 ≤ x) (h1 : x ≤ 1) : 0 ≤ 1 - x ^ a := by
  have := Real.rpow_le_one h0 h1 ha.le; linarith
theorem rpow_lt {x : ℝ} (ha : 0 < a) (h0 : 0 ≤ x) (h1 : x < 1) : 0 < 1 - x ^ a := by
  have := Real.rpow_lt_one h0 h1 ha; linarith
theorem powm1_eval {x : ℝ} (ha : 0 < a) (h0 : 0 ≤ x) :
    mp.powm1 (fin x) (fin a) = .ok (fin (x ^ a - 1)) := powm1_of_nonneg h0 ha

theorem cdf_eval (ha : 0 < a) (hb : 0 < b) (x : ℝ) :
    cdf (fin x) (fin a) (fin b) = .ok (fin (F a b x)) := by
  by_cases h : x < 0
  · simp [cdf, validate_ok ha hb, F, h]
  by_cases h' : 1 < x
  · simp [cdf, validate_ok ha hb, F, h, h']
  have h1 : 0 ≤ -(x ^ a - 1) := by simpa using rpow_le ha (not_lt.1 h) (not_lt.1 h')
  simp [cdf, validate_ok ha hb, F, h, h', powm1_eval ha (not_lt.1 h)]
  rw [neg_sub] at h1
  simp [powm1_of_nonneg h1 hb]
theorem sf_eval (ha : 0 < a) (hb : 0 < b) (x : ℝ) :
    sf (fin x) (fin a) (fin b) = .ok (fin (1 - F a b x)) := by
  by_cases h : x < 0
  · simp [sf, validate_ok ha hb, F, h]
  by_cases h' : 1 < x
  · simp [sf, validate_ok ha hb, F, h, h']
  simp [sf, validate_ok ha hb, F, h, h', powm1_eval ha (not_lt.1 h),
    mp.power_nonneg (rpow_le ha (not_lt.1 h) (not_lt.1 h')) hb]

theorem pdf_eval (ha : 0 < a) (hb : 0 < b) (x : ℝ) (hx : x ∉ Ends a b) :
    pdf (fin x) (fin a) (fin b) = .ok (fin (f a b x)) := by
  by_cases h : x < 0 ∨ 1 < x
  · simp [pdf, validate_ok ha hb, f, h]
  push Not at h
  have h1 : ¬ (x = 0 ∧ a < 1) := fun h => hx (Or.inl h)
  have h2 : ¬ (x = 1 ∧ b < 1) := fun h => hx (Or.inr h)
  have e1 : mp.power (fin x) (fin (a - 1)) = .ok (fin (x ^ (a - 1))) :=
    power_of_nonneg h.1 fun e => by by_contra hc; exact h1 ⟨e, by linarith⟩
  have e2 : mp.power (fin (-(x ^ a - 1))) (fin (b - 1)) = .ok (fin ((1 - x ^ a) ^ (b - 1))) := by
    rw [neg_sub]
    refine power_of_nonneg (rpow_le ha h.1 h.2) fun e => ?_
    by_contra hc
    refine h2 ⟨?_, by linarith⟩
    by_contra hne
    exact (rpow_lt ha h.1 (lt_of_le_of_ne h.2 hne)).ne' e
  simp only [pdf, validate_ok ha hb, ok_bind, zero_def, one_def, fin_lt, h.1.not_gt, h.2.not_gt,
    or_self, if_false, fin_eq, h1, h2, fin_sub, e1, powm1_eval ha h.1, neg_fin, e2, fin_mul,
    pure_eq_ok, f]

theorem pdf_zero (ha : a < 1) (ha0 : 0 < a) (hb : 0 < b) : pdf 0 (fin a) (fin b) = .ok pinf := by
  simp [pdf, validate_ok ha0 hb, ha]
theorem pdf_one (hb : b < 1) (ha : 0 < a) (hb0 : 0 < b) : pdf 1 (fin a) (fin b) = .ok pinf := by
  simp [pdf, validate_ok ha hb0, hb]

theorem f_nonneg (ha : 0 < a) (hb : 0 < b) (x : ℝ) : 0 ≤ f a b x := by
  rw [f]; split_ifs with h
  · exact le_rfl
  · push Not at h
    have := rpow_le ha h.1 h.2
    have h1 := h.1
    positivity
theorem f_pos (ha : 0 < a) (hb : 0 < b) {x : ℝ} (h0 : 0 < x) (h1 : x < 1) : 0 < f a b x := by
  rw [f, if_neg (by push Not; exact ⟨h0.le, h1.le⟩)]
  have := rpow_lt ha h0.le h1
  positivity
theorem f_zero (_ : 0 < a) (_ : 0 < b) : ∀ x, x ∉ Icc (0:ℝ) 1 → f a b x = 0 := by
  intro x hx
  rw [f, if_pos]
  by_contra h
  push Not at h
  exact hx h

theorem logpdf_pos (ha : 0 < a) (hb : 0 < b) {x : ℝ} (h0 : 0 < x) (h1 : x < 1) :
    logpdf (fin x) (fin a) (fin b) = .ok (fin (Real.log (f a b x))) := by
  have h2 := rpow_lt ha h0.le h1
  have h3 : -1 < -(x ^ a) := by linarith
  rw [f, if_neg (by push Not; exact ⟨h0.le, h1.le⟩), Real.log_mul (by positivity) (by positivity),
    Real.log_mul (by positivity) (by positivity), Real.log_mul ha.ne' hb.ne', Real.log_rpow h0,
    Real.log_rpow h2]
  simp only [logpdf, validate_ok ha hb, ok_bind, zero_def, one_def, fin_lt, h0.not_gt, h1.not_gt,
    or_self, if_false, mp.log_pos ha, mp.log_pos hb, mp.log_pos h0, mp.power_pos h0, neg_fin,
    mp.log1p_pos h3, fin_sub, fin_mul, fin_add, pure_eq_ok, ← sub_eq_add_neg]
theorem logpdf_out (ha : 0 < a) (hb : 0 < b) {x : ℝ} (h : x < 0 ∨ 1 < x) :
    logpdf (fin x) (fin a) (fin b) = .ok ninf := by
  simp [logpdf, validate_ok ha hb, h]
theorem pdf_returns (ha : 0 < a) (hb : 0 < b) (x : ℝ) :
    Spec.Returns (pdf (fin x) (fin a) (fin b)) := by
  by_cases h : x ∈ Ends a b
  · rcases h with ⟨rfl, h⟩ | ⟨rfl, h⟩
    · exact ⟨_, pdf_zero h ha hb⟩
    · exact ⟨_, pdf_one h ha hb⟩
  · exact ⟨_, pdf_eval ha hb x h⟩
theorem logpdf_zero (ha : 0 < a) (hb : 0 < b) : logpdf 0 (fin a) (fin b) =
    .ok (if a < 1 then pinf else if a = 1 then nan else ninf) := by
  simp only [logpdf, validate_ok ha hb, ok_bind, zero_def, one_def, fin_lt, lt_irrefl,
    not_lt.2 zero_le_one, or_self, if_false, mp.log_pos ha, mp.log_pos hb, mp.log_zero,
    mp.power_zero_pos ha, neg_fin, neg_zero, mp.log1p_pos (show (-1:ℝ) < 0 by norm_num), fin_sub,
    fin_mul, fin_add, pure_eq_ok]
  rcases lt_trichotomy a 1 with h | h | h
  · simp [h, scaleInf_neg (show a - 1 < 0 by linarith)]
  · simp [h, scaleInf]
  · simp [h.not_gt, h.ne', scaleInf_pos (show 0 < a - 1 by linarith)]
theorem logpdf_one (ha : 0 < a) (hb : 0 < b) : logpdf 1 (fin a) (fin b) =
    .ok (if b < 1 then pinf else if b = 1 then nan else ninf) := by
  simp only [logpdf, validate_ok ha hb, ok_bind, zero_def, one_def, fin_lt, lt_irrefl,
    not_lt.2 zero_le_one, or_self, if_false, mp.log_pos ha, mp.log_pos hb, mp.log_pos one_pos,
    mp.power_pos one_pos, Real.one_rpow, neg_fin, mp.log1p_neg_one, fin_sub,
    fin_mul, fin_add, pure_eq_ok]
  rcases lt_trichotomy b 1 with h | h | h
  · simp [h, scaleInf_neg (show b - 1 < 0 by linarith)]
  · simp [h, scaleInf]
  · simp [h.not_gt, h.ne', scaleInf_pos (show 0 < b - 1 by linarith)]
theorem logpdf_returns (ha : 0 < a) (hb : 0 < b) (x : ℝ) :
    Spec.Returns (logpdf (fin x) (fin a) (fin b)) := by
  by_cases h : x < 0 ∨ 1 < x
  · exact ⟨_, logpdf_out ha hb h⟩
  push Not at h
  rcases h.1.eq_or_lt with rfl | h0
  · exact ⟨_, logpdf_zero ha hb⟩
  rcases h.2.eq_or_lt with rfl | h1
  · exact ⟨_, logpdf_one ha hb⟩
  · exact ⟨_, logpdf_pos ha hb h0 h1⟩

theorem isDist (ha : 0 < a) (hb : 0 < b) : IsDist (F a b) (f a b) := by
  have hca : Continuous fun x : ℝ => x ^ a := Real.continuous_rpow_const ha.le
  refine isDist_Icc (a := 0) (b := 1) (G := fun x => 1 - (1 - x ^ a) ^ b) one_pos ?_ ?_ ?_ ?_ ?_ ?_
    ?_ ?_ ?_ ?_ ?_ ?_
  · intro x hx
    rcases hx.eq_or_lt with rfl | hx
    · simp [F, Real.zero_rpow ha.ne', not_lt.2]
    · simp [F, hx]
  · intro x hx
    rcases hx.eq_or_lt with rfl | hx
    · simp [F, Real.zero_rpow hb.ne', not_lt.2]
    · simp [F, hx, not_lt.2 (zero_le_one.trans hx.le)]
  · intro x h0 h1; simp [F, h0.not_gt, h1.not_gt]
  · simp [Real.zero_rpow ha.ne']
  · simp [Real.zero_rpow hb.ne']
  · exact (continuous_const.sub ((Real.continuous_rpow_const hb.le).comp
      (continuous_const.sub hca))).continuousOn
  · intro x hx; simp [f, hx]
  · intro x hx; simp [f, hx]
  · exact f_nonneg ha hb 0
  · exact f_nonneg ha hb 1
  · intro x h0 h1
    have h2 : HasDerivAt (fun x : ℝ => 1 - x ^ a) (-(a * x ^ (a - 1))) x :=
      (Real.hasDerivAt_rpow_const (Or.inl h0.ne')).const_sub 1
    have h3 : HasDerivAt (fun x : ℝ => (1 - x ^ a) ^ b)
        (-(a * x ^ (a - 1)) * b * (1 - x ^ a) ^ (b - 1)) x :=
      h2.rpow_const (Or.inl (rpow_lt ha h0.le h1).ne')
    refine (h3.const_sub 1).congr_deriv ?_
    rw [f, if_neg (by push Not; exact ⟨h0.le, h1.le⟩)]; ring
  · intro x _ _; exact f_nonneg ha hb x

theorem q_lt (hb : 0 < b) {p : ℝ} (h0 : 0 < p) (h1 : p < 1) : 0 < 1 - p ^ (1 / b) := by
  have := Real.rpow_lt_one h0.le h1 (one_div_pos.2 hb); linarith

theorem invcdf_eval (ha : 0 < a) (hb : 0 < b) {p : ℝ} (h0 : 0 < p) (h1 : p < 1) :
    invcdf (fin p) (fin a) (fin b) = .ok (fin (Q a b p)) := by
  have h2 : -1 < -p := by linarith
  have h3 : -1 < -((1 - p) ^ (1 / b)) := by
    have := q_lt hb (show 0 < 1 - p by linarith) (by linarith)
    linarith
  simp only [invcdf, validate_ok ha hb, validateP_ok h0.le h1.le, ok_bind, zero_def, one_def,
    fin_eq, h0.ne', h1.ne, if_false, neg_fin, fun_.invPowm1_eval h2 hb.ne',
    fun_.invPowm1_eval h3 ha.ne', Q, ← sub_eq_add_neg]
theorem invsf_eval (ha : 0 < a) (hb : 0 < b) {p : ℝ} (h0 : 0 < p) (h1 : p < 1) :
    invsf (fin p) (fin a) (fin b) = .ok (fin (Q a b (1 - p))) := by
  have h3 : -1 < -(p ^ (1 / b)) := by
    have := q_lt hb h0 h1; linarith
  simp only [invsf, validate_ok ha hb, validateP_ok h0.le h1.le, ok_bind, zero_def, one_def,
    fin_eq, h0.ne', h1.ne, if_false, neg_fin, fin_div _ hb.ne', mp.power_pos h0,
    fun_.invPowm1_eval h3 ha.ne', Q, ← sub_eq_add_neg, sub_sub_cancel]
theorem median_eval (ha : 0 < a) (hb : 0 < b) :
    median (fin a) (fin b) = .ok (fin (Q a b (1 / 2))) := by
  have h3 : -1 < -((1 / 2 : ℝ) ^ (1 / b)) := by
    have := q_lt hb (show (0:ℝ) < 1 / 2 by norm_num) (by norm_num); linarith
  simp only [median, validate_ok ha hb, ok_bind, one_def, neg_fin, fin_div _ hb.ne',
    mp.power_pos (show (0:ℝ) < 1 / 2 by norm_num), fun_.invPowm1_eval h3 ha.ne', Q,
    ← sub_eq_add_neg, show (1:ℝ) - 1 / 2 = 1 / 2 by norm_num]

theorem F_Q (ha : 0 < a) (hb : 0 < b) {p : ℝ} (h0 : 0 < p) (h1 : p < 1) :
    Q a b p ∈ Ioo (0:ℝ) 1 ∧ F a b (Q a b p) = p := by
  have h2 : 0 < 1 - p := by linarith
  have h3 := q_lt hb h2 (by linarith)
  have h4 : 0 < (1 - p) ^ (1 / b) := by positivity
  have hQ0 : 0 < Q a b p := Real.rpow_pos_of_pos h3 _
  have hQ1 : Q a b p < 1 := Real.rpow_lt_one h3.le (by linarith) (by positivity)
  refine ⟨⟨hQ0, hQ1⟩, ?_⟩
  rw [F, if_neg hQ0.not_gt, if_neg hQ1.not_gt, Q, fun_.rpow_inv_rpow h3.le ha.ne', sub_sub_cancel,
    fun_.rpow_inv_rpow h2.le hb.ne', sub_sub_cancel]

theorem Q_F (ha : 0 < a) (hb : 0 < b) {x : ℝ} (hx : x ∈ Ioo (0:ℝ) 1) :
    0 < F a b x ∧ F a b x < 1 ∧ Q a b (F a b x) = x := by
  have h2 := rpow_lt ha hx.1.le hx.2
  have hxa : 0 < x ^ a := Real.rpow_pos_of_pos hx.1 a
  rw [F, if_neg hx.1.not_gt, if_neg hx.2.not_gt]
  have h3 : (1 - x ^ a) ^ b < 1 := Real.rpow_lt_one h2.le (by linarith) hb
  have h4 : 0 < (1 - x ^ a) ^ b := by positivity
  refine ⟨by linarith, by linarith, ?_⟩
  rw [Q, sub_sub_cancel, fun_.rpow_rpow_inv h2.le hb.ne', sub_sub_cancel,
    fun_.rpow_rpow_inv hx.1.le ha.ne']

/-- The moments, by the substitution `u = x^a`. -/
theorem moment (ha : 0 < a) (hb : 0 < b) (n : ℕ) :
    Integrable (fun x => x ^ n * f a b x) ∧ ∫ x, x ^ n * f a b x = b * betaFn (1 + n / a) b := by
  set g : ℝ → ℝ := fun u => (Ioc (0:ℝ) 1).indicator
    (fun u => b * (u ^ ((1 + n / a) - 1) * (1 - u) ^ (b - 1))) u with hg
  have hn : 0 < 1 + (n:ℝ) / a := by positivity
  have hz : ∀ x, x < 0 → x ^ n * f a b x = 0 := fun x hx => by simp [f, hx]
  have e : ∀ x ∈ Ioi (0:ℝ), (a * x ^ (a - 1)) • g (x ^ a) = x ^ n * f a b x := by
    intro x hx
    have hx : 0 < x := hx
    by_cases h : x ≤ 1
    · have h2 : x ^ a ≤ 1 := Real.rpow_le_one hx.le h ha.le
      have e1 : (x ^ a) ^ ((1 + n / a) - 1 : ℝ) = x ^ n := by
        rw [← Real.rpow_mul hx.le, ← Real.rpow_natCast]; congr 1; field_simp; ring
      rw [hg]
      simp only [indicator, mem_Ioc, Real.rpow_pos_of_pos hx a, h2, and_self, if_true, e1, f,
        hx.not_gt, h.not_gt, or_self, if_false, smul_eq_mul]
      ring
    · have h2 : ¬ x ^ a ≤ 1 := not_le.2 (Real.one_lt_rpow (not_le.1 h) ha)
      simp [hg, f, h2, not_le.1 h]
  have hgi : IntegrableOn g (Ioi 0) := by
    have := (betaIntegrable hn hb).const_mul b
    rw [intervalIntegrable_iff_integrableOn_Ioc_of_le zero_le_one] at this
    exact ((integrable_indicator_iff measurableSet_Ioc).2 this).integrableOn
  constructor
  · refine integrable_of_Ioi hz ?_
    have := (integrableOn_Ioi_comp_rpow_iff g ha.ne').2 hgi
    rw [abs_of_pos ha] at this
    exact this.congr_fun e measurableSet_Ioi
  · rw [integral_Ioi_of_zero hz, ← setIntegral_congr_fun measurableSet_Ioi e,
      integral_comp_rpow_Ioi_of_pos ha, hg, setIntegral_indicator measurableSet_Ioc,
      show Ioi (0:ℝ) ∩ Ioc 0 1 = Ioc 0 1 from inter_eq_right.2 fun x hx => hx.1,
      ← intervalIntegral.integral_of_le zero_le_one, intervalIntegral.integral_const_mul]
    congr 1
    exact betaInt_full hn hb

theorem hasMV (ha : 0 < a) (hb : 0 < b) : HasMV (f a b) (b * betaFn (1 + 1 / a) b)
    (b * betaFn (1 + 2 / a) b - (b * betaFn (1 + 1 / a) b) ^ 2) := by
  have h := isDist ha hb
  have h1 := moment ha hb 1
  have h2 := moment ha hb 2
  simp only [Nat.cast_one, pow_one] at h1
  refine ⟨h.integrable, h.integral_one, h1.1, h1.2, h2.1, ?_⟩
  rw [h2.2]; push_cast; ring

theorem mean_eval (ha : 0 < a) (hb : 0 < b) :
    mean (fin a) (fin b) = .ok (fin (b * betaFn (1 + 1 / a) b)) := by
  have : 0 < 1 + 1 / a := by positivity
  simp only [mean, validate_ok ha hb, ok_bind, one_def, fin_div _ ha.ne', fin_add,
    mp.beta_fin this hb, fin_mul, pure_eq_ok]
theorem var_eval (ha : 0 < a) (hb : 0 < b) : var (fin a) (fin b) =
    .ok (fin (b * betaFn (1 + 2 / a) b - (b * betaFn (1 + 1 / a) b) ^ 2)) := by
  have : 0 < 1 + 2 / a := by positivity
  simp only [var, validate_ok ha hb, ok_bind, one_def, ofNat_def, fin_div _ ha.ne', fin_add,
    mp.beta_fin this hb, fin_mul, pure_eq_ok, mean_eval ha hb, mp.ipow_fin, fin_sub]

theorem mode_eval (ha : 1 < a) (hb : 1 < b) :
    mode (fin a) (fin b) = .ok (fin (((a - 1) / (a * b - 1)) ^ (1 / a))) := by
  have h0 : 0 < a := by linarith
  have h1 : 0 < a * b - 1 := by nlinarith
  have h2 : 0 < (a - 1) / (a * b - 1) := div_pos (by linarith) h1
  simp only [mode, validate_ok h0 (zero_lt_one.trans hb), ok_bind, zero_def, one_def, fin_lt, fin_le,
    fin_eq, ha.not_gt, ha.ne', hb.not_gt, hb.ne', hb.le, false_and, and_false, or_self, if_false,
    fin_sub, fin_mul, fin_div _ h1.ne', fin_div _ h0.ne', mp.power_pos h2]

theorem f_le (ha : 1 < a) (hb : 1 < b) (x : ℝ) :
    f a b x ≤ f a b (((a - 1) / (a * b - 1)) ^ (1 / a)) := by
  have h0 : 0 < a := by linarith
  have hb0 : 0 < b := by linarith
  have h1 : 0 < a * b - 1 := by nlinarith
  have h2 : 0 < (a - 1) / (a * b - 1) := div_pos (by linarith) h1
  have h3 : (a - 1) / (a * b - 1) < 1 := by rw [div_lt_one h1]; nlinarith
  by_cases h : 0 < x ∧ x < 1
  · have key : ∀ x : ℝ, 0 < x → x < 1 →
        f a b x = a * b * ((x ^ a) ^ ((a - 1) / a) * (1 - x ^ a) ^ (b - 1)) := by
      intro x hx hx1
      rw [f, if_neg (by push Not; exact ⟨hx.le, hx1.le⟩), ← Real.rpow_mul hx.le,
        mul_div_cancel₀ _ h0.ne']
      ring
    have hm0 : 0 < ((a - 1) / (a * b - 1)) ^ (1 / a) := by positivity
    have hm1 : ((a - 1) / (a * b - 1)) ^ (1 / a) < 1 := Real.rpow_lt_one h2.le h3 (by positivity)
    rw [key x h.1 h.2, key _ hm0 hm1, fun_.rpow_inv_rpow h2.le h0.ne']
    refine mul_le_mul_of_nonneg_left ?_ (by positivity)
    have hu1 := rpow_lt h0 h.1.le h.2
    have := rpow_mul_rpow_le (a := (a - 1) / a) (b := b - 1) (p := x ^ a) (div_pos (by linarith) h0)
      (by linarith) (Real.rpow_pos_of_pos h.1 a) (by linarith)
    have e0 : (a - 1) / a + (b - 1) = (a * b - 1) / a := by field_simp; ring
    have e1 : (a - 1) / a / ((a * b - 1) / a) = (a - 1) / (a * b - 1) := by field_simp
    have e2 : (b - 1) / ((a * b - 1) / a) = 1 - (a - 1) / (a * b - 1) := by
      rw [div_div_eq_mul_div, eq_sub_iff_add_eq, ← add_div, div_eq_one_iff_eq h1.ne']; ring
    rw [e0, e1, e2] at this
    exact this
  · have : f a b x = 0 := by
      by_cases hx : x < 0 ∨ 1 < x
      · simp [f, hx]
      · push Not at hx
        rcases hx.1.eq_or_lt with rfl | hx0
        · simp [f, Real.zero_rpow (show a - 1 ≠ 0 by linarith)]
        · have : x = 1 := le_antisymm hx.2 (not_lt.1 fun h' => h ⟨hx0, h'⟩)
          simp [this, f, Real.zero_rpow (show b - 1 ≠ 0 by linarith)]
    rw [this]; exact f_nonneg h0 hb0 _

end Mpsci.kumaraswamy
