import Verif.Model.Dist.Hypsecant
import Verif.Lemmas.Common
import Verif.Lemmas.Helpers
import Verif.Lemmas.Int01
import Mathlib.Analysis.SpecialFunctions.Trigonometric.ArctanDeriv
import Mathlib.Analysis.SpecialFunctions.Trigonometric.DerivHyp
import Mathlib.Analysis.SpecialFunctions.Integrals.LogTrigonometric

namespace Mpsci.hypsecant

open Classical Num common Filter Topology Set MeasureTheory

noncomputable def F (z : ℝ) : ℝ := 2 / Real.pi * Real.arctan (Real.exp z)
noncomputable def f (z : ℝ) : ℝ := 1 / Real.cosh z / Real.pi
noncomputable def Q (p : ℝ) : ℝ := Real.log (Real.tan (Real.pi * p / 2))

variable {loc s : ℝ}

theorem validate_ok (hs : 0 < s) : validateLocScale (fin loc) (fin s) = .ok (fin loc, fin s) :=
  validateLocScale_ok _ hs
theorem validate_bad (hs : ¬ 0 < s) : validateLocScale (fin loc) (fin s) = .error .valueError :=
  validateLocScale_bad _ (not_lt.1 hs)

theorem f_pos (z : ℝ) : 0 < f z := by
  have := Real.cosh_pos z; have := Real.pi_pos; unfold f; positivity

theorem F_neg (z : ℝ) : F (-z) = 1 - F z := by
  rw [F, F, Real.exp_neg, Real.arctan_inv_of_pos (Real.exp_pos z)]
  have := Real.pi_pos
  field_simp

theorem cdf_eval (hs : 0 < s) (x : ℝ) :
    cdf (fin x) (fin loc) (fin s) = .ok (fin (F ((x - loc) / s))) := by
  simp [cdf, validateArgs, validate_ok hs, fin_div _ hs.ne', fin_div _ Real.pi_ne_zero, F]
theorem sf_eval (hs : 0 < s) (x : ℝ) :
    sf (fin x) (fin loc) (fin s) = .ok (fin (1 - F ((x - loc) / s))) := by
  rw [← F_neg]
  simp [sf, validateArgs, validate_ok hs, fin_div _ hs.ne', fin_div _ Real.pi_ne_zero, F]
theorem pdf_eval (hs : 0 < s) (x : ℝ) :
    pdf (fin x) (fin loc) (fin s) = .ok (fin (f ((x - loc) / s) / s)) := by
  simp only [pdf, validateArgs, validate_ok hs, fin_div _ hs.ne', fin_div _ Real.pi_ne_zero, ok_bind,
    pure_eq_ok, fin_sub, mp.sech_fin, mp.pi_def, f]
theorem logpdf_eval (hs : 0 < s) (x : ℝ) : logpdf (fin x) (fin loc) (fin s)
    = .ok (fin (Real.log (f ((x - loc) / s) / s))) := by
  rw [logpdf, pdf_eval hs, ok_bind, mp.log_pos (div_pos (f_pos _) hs)]
theorem pdf_returns (hs : 0 < s) (x : ℝ) : Spec.Returns (pdf (fin x) (fin loc) (fin s)) :=
  ⟨_, pdf_eval hs x⟩
theorem logpdf_returns (hs : 0 < s) (x : ℝ) : Spec.Returns (logpdf (fin x) (fin loc) (fin s)) :=
  ⟨_, logpdf_eval hs x⟩

theorem hasDerivAt_F (z : ℝ) : HasDerivAt F (f z) z := by
  refine (((Real.hasDerivAt_exp z).arctan).const_mul (2 / Real.pi)).congr_deriv ?_
  have h : Real.exp z * Real.exp (-z) = 1 := by rw [← Real.exp_add]; simp
  have := Real.exp_pos z
  have := Real.exp_pos (-z)
  have := Real.pi_pos
  rw [f, Real.cosh_eq]
  field_simp
  linear_combination h

theorem isDist_std : IsDist F f := by
  refine isDist_univ hasDerivAt_F (fun z => (f_pos z).le) ?_ ?_
  · have h1 := (Real.continuous_arctan.tendsto 0).comp Real.tendsto_exp_atBot
    rw [Real.arctan_zero] at h1
    have h2 := h1.const_mul (2 / Real.pi)
    rw [mul_zero] at h2; exact h2
  · have h1 := (Real.tendsto_arctan_atTop.mono_right nhdsWithin_le_nhds).comp Real.tendsto_exp_atTop
    have h2 := h1.const_mul (2 / Real.pi)
    have : 2 / Real.pi * (Real.pi / 2) = 1 := by have := Real.pi_pos; field_simp
    rw [this] at h2; exact h2

theorem isDist (hs : 0 < s) :
    IsDist (fun x => F ((x - loc) / s)) (fun x => f ((x - loc) / s) / s) := isDist_std.affine loc hs

theorem tan_arg {p : ℝ} (h0 : 0 < p) (h1 : p < 1) : 0 < Real.pi * p / 2 ∧ Real.pi * p / 2 < Real.pi / 2 := by
  have := Real.pi_pos
  constructor
  · positivity
  · nlinarith

theorem tan_pos {p : ℝ} (h0 : 0 < p) (h1 : p < 1) : 0 < Real.tan (Real.pi * p / 2) :=
  Real.tan_pos_of_pos_of_lt_pi_div_two (tan_arg h0 h1).1 (tan_arg h0 h1).2

theorem cos_pos {p : ℝ} (h0 : 0 < p) (h1 : p < 1) : 0 < Real.cos (Real.pi * p / 2) :=
  Real.cos_pos_of_mem_Ioo ⟨by linarith [(tan_arg h0 h1).1, Real.pi_pos], (tan_arg h0 h1).2⟩

theorem Q_compl {p : ℝ} (h0 : 0 < p) (h1 : p < 1) : Q (1 - p) = -Q p := by
  rw [Q, Q, ← Real.log_inv, ← Real.tan_pi_div_two_sub]; congr 2; ring

theorem invcdf_eval (hs : 0 < s) {p : ℝ} (h0 : 0 < p) (h1 : p < 1) :
    invcdf (fin p) (fin loc) (fin s) = .ok (fin (loc + s * Q p)) := by
  simp [invcdf, validateP_ok h0.le h1.le, validate_ok hs, fin_div _ (two_ne_zero (α := ℝ)),
    mp.tan_fin (cos_pos h0 h1).ne', mp.log_pos (tan_pos h0 h1), Q]
theorem invsf_eval (hs : 0 < s) {p : ℝ} (h0 : 0 < p) (h1 : p < 1) :
    invsf (fin p) (fin loc) (fin s) = .ok (fin (loc + s * Q (1 - p))) := by
  rw [Q_compl h0 h1]
  simp [invsf, validateP_ok h0.le h1.le, validate_ok hs, fin_div _ (two_ne_zero (α := ℝ)),
    mp.tan_fin (cos_pos h0 h1).ne', mp.log_pos (tan_pos h0 h1), Q]; ring

theorem F_Q (_ : 0 < s) {p : ℝ} (h0 : 0 < p) (h1 : p < 1) : Q p ∈ (univ : Set ℝ) ∧ F (Q p) = p := by
  refine ⟨trivial, ?_⟩
  rw [F, Q, Real.exp_log (tan_pos h0 h1), Real.arctan_tan (by linarith [(tan_arg h0 h1).1, Real.pi_pos]) (tan_arg h0 h1).2]
  have := Real.pi_pos
  field_simp

theorem Q_F (_ : 0 < s) {z : ℝ} (_ : z ∈ (univ : Set ℝ)) : 0 < F z ∧ F z < 1 ∧ Q (F z) = z := by
  have h1 : 0 < Real.arctan (Real.exp z) := Real.arctan_pos.2 (Real.exp_pos z)
  have h2 := Real.arctan_lt_pi_div_two (Real.exp z)
  have := Real.pi_pos
  refine ⟨by rw [F]; positivity, ?_, ?_⟩
  · rw [F, div_mul_eq_mul_div, div_lt_one this]; linarith
  · rw [Q, F, show Real.pi * (2 / Real.pi * Real.arctan (Real.exp z)) / 2 = Real.arctan (Real.exp z) by
      field_simp, Real.tan_arctan, Real.log_exp]

theorem f_le (z : ℝ) : f z ≤ f 0 := by
  have := Real.one_le_cosh z
  have := Real.pi_pos
  rw [f, f, Real.cosh_zero]; gcongr

/-! ### Moments -/

/-- `1/cosh z = 2 Σ (-1)^k e^(-(2k+1)z)` for `z > 0` -/
theorem sech_series {z : ℝ} (hz : 0 < z) :
    HasSum (fun k : ℕ => 2 * ((-1) ^ k * Real.exp (-((2 * k + 1) * z)))) (1 / Real.cosh z) := by
  have h1 : |-(Real.exp (-(2 * z)))| < 1 := by
    rw [abs_neg, abs_of_pos (Real.exp_pos _), Real.exp_lt_one_iff]; linarith
  have h := ((hasSum_geometric_of_abs_lt_one h1).mul_left (Real.exp (-z))).mul_left 2
  have e : 2 * (Real.exp (-z) * (1 - -Real.exp (-(2 * z)))⁻¹) = 1 / Real.cosh z := by
    have h2 : Real.exp (-(2 * z)) = Real.exp (-z) * Real.exp (-z) := by rw [← Real.exp_add]; ring_nf
    have h3 : Real.exp z * Real.exp (-z) = 1 := by rw [← Real.exp_add]; simp
    have := Real.exp_pos z
    have := Real.exp_pos (-z)
    have h4 : 1 + Real.exp (-z) * Real.exp (-z) ≠ 0 := by positivity
    rw [Real.cosh_eq, h2, sub_neg_eq_add]; field_simp; linear_combination h3
  rw [e] at h
  refine h.congr_fun fun k => ?_
  rw [neg_pow (Real.exp _), ← Real.exp_nat_mul, mul_left_comm (Real.exp (-z)), ← Real.exp_add]
  congr 3; ring_nf

theorem second_half : IntegrableOn (fun z => z ^ 2 * f z) (Ioi 0) ∧
    ∫ z in Ioi (0:ℝ), z ^ 2 * f z = Real.pi ^ 2 / 8 := by
  have hpi := Real.pi_pos
  set g : ℕ → ℝ → ℝ := fun k z => 2 / Real.pi * ((-1) ^ k * (z ^ 2 * Real.exp (-((2 * k + 1) * z)))) with hg
  have hb : ∀ k : ℕ, (0:ℝ) < 2 * k + 1 := fun k => by positivity
  have i0 : ∀ k : ℕ, IntegrableOn (fun z : ℝ => z ^ 2 * Real.exp (-((2 * k + 1) * z))) (Ioi 0) := fun k => by
    have := integrableOn_rpow_mul_exp_neg_mul_rpow (s := 2) (p := 1) (b := 2 * (k:ℝ) + 1) (by norm_num) (by norm_num) (hb k)
    refine this.congr_fun (fun x _ => ?_) measurableSet_Ioi
    simp only [Real.rpow_one, neg_mul]; norm_num
  have v0 : ∀ k : ℕ, ∫ z in Ioi (0:ℝ), z ^ 2 * Real.exp (-((2 * k + 1) * z)) = 2 / (2 * (k:ℝ) + 1) ^ 3 := fun k => by
    have := Real.integral_rpow_mul_exp_neg_mul_Ioi (a := 3) (r := 2 * (k:ℝ) + 1) (by norm_num) (hb k)
    have e : Real.Gamma 3 = 2 := by
      rw [show (3:ℝ) = 2 + 1 by norm_num, Real.Gamma_add_one (by norm_num), Real.Gamma_two]; norm_num
    rw [e, show (3:ℝ) = ((3:ℕ):ℝ) by norm_num, Real.rpow_natCast, div_pow, one_pow, div_mul_eq_mul_div, one_mul] at this
    rw [← this]
    refine setIntegral_congr_fun measurableSet_Ioi fun x _ => ?_
    norm_num
  have hs3 : Summable fun k : ℕ => 1 / (2 * (k:ℝ) + 1) ^ 3 := by
    refine Summable.of_nonneg_of_le (fun k => by positivity) (fun k => ?_)
      ((summable_nat_add_iff 1).2 (Real.summable_one_div_nat_pow.2 (by norm_num : 1 < 3)))
    push_cast
    gcongr
    have : (0:ℝ) ≤ k := by positivity
    linarith
  have hn : ∀ k : ℕ, ∫ z in Ioi (0:ℝ), ‖g k z‖ = 2 / Real.pi * (2 / (2 * (k:ℝ) + 1) ^ 3) := fun k => by
    rw [← v0 k, ← integral_const_mul]
    refine setIntegral_congr_fun measurableSet_Ioi fun z hz => ?_
    simp only [hg, norm_mul, norm_pow, norm_neg, norm_one, one_pow, one_mul]
    rw [Real.norm_of_nonneg (by positivity), ← norm_pow, Real.norm_of_nonneg (by positivity), Real.norm_of_nonneg (by positivity)]
  have key := hasSum_integral_of_summable_integral_norm (μ := volume.restrict (Ioi (0:ℝ))) (F := g)
    (fun k => ((i0 k).const_mul _).const_mul _) (by
      simp only [hn]
      refine (hs3.mul_left (2 / Real.pi * 2)).congr fun k => ?_
      ring)
  have hv : ∀ k : ℕ, ∫ z in Ioi (0:ℝ), g k z = 4 / Real.pi * ((-1) ^ k / (2 * (k:ℝ) + 1) ^ 3) := fun k => by
    simp only [hg]
    rw [integral_const_mul, integral_const_mul, v0 k]; ring
  have he : ∀ z ∈ Ioi (0:ℝ), ∑' k, g k z = z ^ 2 * f z := fun z hz => by
    have := ((sech_series hz).mul_left (z ^ 2 / Real.pi)).tsum_eq
    rw [show z ^ 2 * f z = z ^ 2 / Real.pi * (1 / Real.cosh z) by rw [f]; ring, ← this]
    congr 1; funext k; simp only [hg]; ring
  rw [setIntegral_congr_fun measurableSet_Ioi he] at key
  simp only [hv] at key
  have hL : HasSum (fun k : ℕ => (-1:ℝ) ^ k / (2 * (k:ℝ) + 1) ^ 3) (Real.pi ^ 3 / 32) := by
    have h := hasSum_L_function_mod_four_eval_three
    have hinj : Function.Injective (fun k : ℕ => 2 * k + 1) := fun a b h => by simpa using h
    rw [← hinj.hasSum_iff] at h
    · convert h using 1
      funext k
      have : Real.sin (Real.pi * ((2 * k + 1 : ℕ) : ℝ) / 2) = (-1) ^ k := by
        have e : Real.pi * ((2 * k + 1 : ℕ) : ℝ) / 2 = Real.pi / 2 + k * Real.pi := by push_cast; ring
        rw [e, Real.sin_add_nat_mul_pi, Real.sin_pi_div_two, mul_one]
      simp only [Function.comp, this]; push_cast; ring
    · intro n hn
      have hev : Even n := by
        rcases Nat.even_or_odd n with h | ⟨k, hk⟩
        · exact h
        · exact absurd ⟨k, hk.symm⟩ hn
      obtain ⟨k, rfl⟩ := hev
      have e : Real.pi * ((k + k : ℕ) : ℝ) / 2 = k * Real.pi := by push_cast; ring
      rw [e, Real.sin_nat_mul_pi, mul_zero]
  have hval := key.unique (hL.mul_left (4 / Real.pi))
  have e : 4 / Real.pi * (Real.pi ^ 3 / 32) = Real.pi ^ 2 / 8 := by field_simp; norm_num
  rw [e] at hval
  refine ⟨?_, hval⟩
  by_contra hni
  rw [integral_undef hni] at hval
  have : 0 < Real.pi ^ 2 / 8 := by positivity
  linarith

theorem f_neg (z : ℝ) : f (-z) = f z := by rw [f, f, Real.cosh_neg]

theorem hasMV_std : HasMV f 0 (Real.pi ^ 2 / 4) := by
  obtain ⟨i2, s2⟩ := integral_even (g := fun z => z ^ 2 * f z) (fun z => by rw [f_neg]; ring)
    second_half.1 second_half.2
  have i1 : Integrable (fun z => z * f z) := by
    refine Integrable.mono' (isDist_std.integrable.add i2) ?_ (Eventually.of_forall fun z => ?_)
    · exact aestronglyMeasurable_id.mul isDist_std.integrable.aestronglyMeasurable
    · rw [norm_mul, Real.norm_of_nonneg (f_pos z).le, Real.norm_eq_abs]
      have h3 : |z| ≤ 1 + z ^ 2 := by
        rcases abs_cases z with h | h <;> nlinarith
      calc |z| * f z ≤ (1 + z ^ 2) * f z := by gcongr; exact (f_pos z).le
        _ = _ := by simp; ring
  refine ⟨isDist_std.integrable, isDist_std.integral_one, i1, ?_, i2, by rw [s2]; ring⟩
  have := integral_neg_eq_self (fun z => z * f z) volume
  simp only [f_neg, neg_mul, integral_neg] at this
  linarith

theorem f_Q {p : ℝ} (h0 : 0 < p) (h1 : p < 1) : f (Q p) = Real.sin (Real.pi * p) / Real.pi := by
  have ht := tan_pos h0 h1
  have hc := cos_pos h0 h1
  have h2 := Real.sin_two_mul (Real.pi * p / 2)
  have h3 := Real.sin_sq_add_cos_sq (Real.pi * p / 2)
  rw [show 2 * (Real.pi * p / 2) = Real.pi * p by ring] at h2
  rw [f, Real.cosh_eq, Q, Real.exp_log ht, Real.exp_neg, Real.exp_log ht, h2]
  rw [Real.tan_eq_sin_div_cos] at ht ⊢
  have hsn : 0 < Real.sin (Real.pi * p / 2) := by
    have := mul_pos ht hc; rwa [div_mul_cancel₀ _ hc.ne'] at this
  have := Real.pi_pos
  field_simp
  linear_combination -h3

theorem hasEnt_std : HasEnt f (Real.log (2 * Real.pi)) := by
  have hpi := Real.pi_pos
  refine HasEnt.of_int01 isDist_std (fun p h0 h1 => (F_Q one_pos h0 h1).2) ?_
  have h1 : Int01 (fun p => Real.log (Real.sin (Real.pi * p))) (-Real.log 2) := by
    have hi := (intervalIntegrable_log_sin (a := 0) (b := Real.pi))
    have hv := integral_log_sin_zero_pi
    constructor
    · have := (hi.comp_mul_left (c := Real.pi))
      rw [zero_div, div_self hpi.ne', intervalIntegrable_iff_integrableOn_Ioo_of_le zero_le_one] at this
      exact this
    · rw [← integral_Ioc_eq_integral_Ioo, ← intervalIntegral.integral_of_le zero_le_one,
        intervalIntegral.integral_comp_mul_left (fun x => Real.log (Real.sin x)) hpi.ne', mul_zero, mul_one, hv]
      rw [smul_eq_mul]; field_simp
  have h2 := (Int01.const (Real.log Real.pi)).sub h1
  have e : Real.log Real.pi - -Real.log 2 = Real.log (2 * Real.pi) := by
    rw [Real.log_mul two_ne_zero hpi.ne']; ring
  rw [e] at h2
  refine h2.congr fun p h0 h1 => ?_
  have hsin : 0 < Real.sin (Real.pi * p) :=
    Real.sin_pos_of_pos_of_lt_pi (by positivity) (by nlinarith)
  rw [f_Q h0 h1, Real.log_div hsin.ne' hpi.ne']; ring

end Mpsci.hypsecant
