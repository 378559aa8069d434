import Verif.Lemmas.NakDist
import Verif.Lemmas.NormalDist
import Verif.Lemmas.DensityDist
import Mathlib.MeasureTheory.Integral.Prod
import Mathlib.MeasureTheory.Integral.Gamma
import Mathlib.Analysis.SpecialFunctions.Exponential

/-! The noncentral t distribution: `(Z + m) / S`, where `Z` is standard normal and `v S²` has a chi-square distribution with `v` degrees of
freedom. -/

namespace Mpsci.nctD

open Classical MeasureTheory Set Filter Topology

variable {v m : ℝ}

/-- moments of the normal distribution with mean `m` -/
noncomputable def P (n : ℕ) (m : ℝ) : ℝ := ∫ y, y ^ n * phi (y - m)

theorem int_P (n : ℕ) (m : ℝ) : Integrable fun y => y ^ n * phi (y - m) := by
  have h : Integrable fun z => (z + m) ^ n * phi z := by
    refine Integrable.mono' (((integrable_pow_phi n).norm.add (phi_integrable.const_mul (|m| ^ n))).const_mul (2 ^ (n - 1)))
      ((Measurable.aestronglyMeasurable (by fun_prop)).mul phi_integrable.aestronglyMeasurable) (Eventually.of_forall fun z => ?_)
    have hp := (phi_pos z).le
    simp only [Pi.add_apply, norm_mul, Real.norm_eq_abs, abs_pow, abs_of_nonneg hp]
    have h1 : |z + m| ^ n ≤ 2 ^ (n - 1) * (|z| ^ n + |m| ^ n) :=
      le_trans (pow_le_pow_left₀ (abs_nonneg _) (abs_add_le _ _) n) (add_pow_le (abs_nonneg z) (abs_nonneg m) n)
    nlinarith [mul_le_mul_of_nonneg_right h1 hp]
  simpa using h.comp_sub_right m

theorem P_zero (m : ℝ) : P 0 m = 1 := by simp [P, integral_sub_right_eq_self phi m, phi_integral]

theorem P_succ (n : ℕ) (m : ℝ) : P (n + 1) m = m * P n m + n * P (n - 1) m := by
  have hd : ∀ y, HasDerivAt (fun y => y ^ n * phi (y - m)) (n * (y ^ (n - 1) * phi (y - m)) + m * (y ^ n * phi (y - m)) - y ^ (n + 1) * phi (y - m)) y :=
    fun y => by
      have h1 : HasDerivAt (fun y => phi (y - m)) (-(y - m) * phi (y - m)) y := by
        have := (hasDerivAt_phi (y - m)).comp y ((hasDerivAt_id y).sub_const m)
        rw [mul_one] at this; exact this
      refine ((hasDerivAt_pow n y).mul h1).congr_deriv ?_
      ring
  have i1 := (int_P (n - 1) m).const_mul (n:ℝ)
  have i2 := (int_P n m).const_mul m
  have i12 : Integrable (fun y => n * (y ^ (n - 1) * phi (y - m)) + m * (y ^ n * phi (y - m))) := i1.add i2
  have hi : Integrable (fun y => n * (y ^ (n - 1) * phi (y - m)) + m * (y ^ n * phi (y - m)) - y ^ (n + 1) * phi (y - m)) := i12.sub (int_P (n + 1) m)
  have h := integral_eq_zero_of_hasDerivAt_of_integrable hd hi (int_P n m)
  rw [integral_sub i12 (int_P (n + 1) m), integral_add i1 i2, integral_const_mul, integral_const_mul] at h
  simp only [P]; linarith

/-- density of `S` -/
noncomputable def h (v s : ℝ) : ℝ := nakD.f (v / 2) (v / 2) s

theorem h_nonpos {s : ℝ} (hs : s ≤ 0) : h v s = 0 := nakD.f_nonpos hs
theorem h_nonneg (hv : 0 < v) (s : ℝ) : 0 ≤ h v s := nakD.f_nonneg (half_pos hv) (half_pos hv) s
theorem h_eq (hv : 0 < v) {s : ℝ} (hs : 0 < s) : h v s = 2 * (v / 2) ^ (v / 2) / Real.Gamma (v / 2) * (s ^ (v - 1) * Real.exp (-(v / 2) * s ^ (2:ℝ))) := by
  rw [h, nakD.f_eq (half_pos hv) hs, show 2 * (v / 2) - 1 = v - 1 by ring, Real.rpow_two, neg_mul]; ring

theorem int_pow {a q : ℝ} (ha : -1 < a) (hq : 0 < q) : IntegrableOn (fun s : ℝ => s ^ a * Real.exp (-q * s ^ (2:ℝ))) (Ioi 0) :=
  integrableOn_rpow_mul_exp_neg_mul_rpow ha two_pos hq

/-- negative moments of `S` -/
theorem h_mom (hv : 0 < v) {n : ℕ} (hn : (n:ℝ) < v) : Integrable (fun s => h v s * (s⁻¹) ^ n) ∧
    ∫ s, h v s * (s⁻¹) ^ n = (v / 2) ^ ((n:ℝ) / 2) * Real.Gamma ((v - n) / 2) / Real.Gamma (v / 2) := by
  have h2 : 0 < v / 2 := half_pos hv
  have e : ∀ s ∈ Ioi (0:ℝ), h v s * (s⁻¹) ^ n = 2 * (v / 2) ^ (v / 2) / Real.Gamma (v / 2) * (s ^ (v - n - 1) * Real.exp (-(v / 2) * s ^ (2:ℝ))) := fun s hs => by
    have hs' : (0:ℝ) < s := hs
    rw [h_eq hv hs', show v - n - 1 = (v - 1) - n by ring, Real.rpow_sub hs' (v - 1) n, Real.rpow_natCast, inv_pow]; ring
  have hi : IntegrableOn (fun s => h v s * (s⁻¹) ^ n) (Ioi 0) :=
    IntegrableOn.congr_fun ((int_pow (show -1 < v - n - 1 by linarith) h2).const_mul (2 * (v / 2) ^ (v / 2) / Real.Gamma (v / 2))) (fun s hs => (e s hs).symm) measurableSet_Ioi
  have hz : ∀ s, s ≤ 0 → h v s * (s⁻¹) ^ n = 0 := fun s hs => by rw [h_nonpos hs, zero_mul]
  refine ⟨(integrableOn_iff_integrable_of_support_subset fun s hs => ?_).1 hi, ?_⟩
  · by_contra hc; exact hs (hz s (not_lt.1 hc))
  · have h0 : ∫ s, h v s * (s⁻¹) ^ n = ∫ s in Ioi (0:ℝ), h v s * (s⁻¹) ^ n :=
      (setIntegral_eq_integral_of_forall_compl_eq_zero fun s hs => hz s (not_lt.1 hs)).symm
    rw [h0, setIntegral_congr_fun measurableSet_Ioi e, integral_const_mul,
      integral_rpow_mul_exp_neg_mul_rpow two_pos (by linarith) h2, show -(v - n - 1 + 1) / 2 = -(v / 2) + n / 2 by ring,
      Real.rpow_add h2, Real.rpow_neg h2.le, show (v - n - 1 + 1) / 2 = (v - n) / 2 by ring]
    have := (Real.rpow_pos_of_pos h2 (v / 2)).ne'
    field_simp

/-- joint density -/
noncomputable def G (v m s x : ℝ) : ℝ := h v s * (s * phi (x * s - m))

theorem G_nonpos {s : ℝ} (hs : s ≤ 0) (x : ℝ) : G v m s x = 0 := by rw [G, h_nonpos hs, zero_mul]
theorem G_nonneg (hv : 0 < v) (s x : ℝ) : 0 ≤ G v m s x := by
  rcases le_or_gt s 0 with hs | hs
  · rw [G_nonpos hs]
  · exact mul_nonneg (h_nonneg hv s) (mul_nonneg hs.le (phi_pos _).le)

theorem measurable_h (v : ℝ) : Measurable (h v) := by
  unfold h nakD.f gammaD.g
  exact Measurable.ite measurableSet_Iic measurable_const (by fun_prop)
theorem measurable_G (v m : ℝ) : Measurable fun q : ℝ × ℝ => G v m q.1 q.2 := by
  unfold G phi
  have := measurable_h v
  fun_prop

theorem inner {g : ℝ → ℝ} (hg : ∀ x s, g (x * s) = g x * g s) (hi : Integrable fun y => g y * phi (y - m)) (s : ℝ) :
    Integrable (fun x => g x * G v m s x) ∧ ∫ x, g x * G v m s x = h v s * g (s⁻¹) * ∫ y, g y * phi (y - m) := by
  rcases le_or_gt s 0 with hs | hs
  · have e : (fun x => g x * G v m s x) = fun _ => 0 := funext fun x => by rw [G_nonpos hs, mul_zero]
    rw [e, h_nonpos hs]; simp
  · have e : (fun x => g x * G v m s x) = fun x => h v s * s * g (s⁻¹) * (fun y => g y * phi (y - m)) (x * s) := funext fun x => by
      have : g x = g (s⁻¹) * g (x * s) := by rw [mul_comm, ← hg, mul_assoc, mul_inv_cancel₀ hs.ne', mul_one]
      simp only [G]; rw [this]; ring
    rw [e]
    refine ⟨(hi.comp_mul_right' hs.ne').const_mul _, ?_⟩
    rw [integral_const_mul, Measure.integral_comp_mul_right (fun y => g y * phi (y - m)), smul_eq_mul, abs_of_pos (inv_pos.2 hs)]
    field_simp

noncomputable def f (v m x : ℝ) : ℝ := ∫ s, G v m s x

theorem f_nonneg (hv : 0 < v) (x : ℝ) : 0 ≤ f v m x := integral_nonneg fun s => G_nonneg hv s x

theorem int_prod (hv : 0 < v) {n : ℕ} (hn : (n:ℝ) < v) :
    Integrable (fun q : ℝ × ℝ => q.2 ^ n * G v m q.1 q.2) (volume.prod volume) := by
  have i1 : Integrable fun y => |y| ^ n * phi (y - m) := by
    refine (int_P n m).norm.congr (Eventually.of_forall fun y => ?_)
    simp only [norm_mul, Real.norm_eq_abs, abs_pow, abs_of_nonneg (phi_pos _).le]
  refine (integrable_prod_iff ?_).2 ⟨Eventually.of_forall fun s =>
    (inner (g := fun x => x ^ n) (fun x s => mul_pow x s n) (int_P n m) s).1, ?_⟩
  · exact ((measurable_snd.pow_const n).mul (measurable_G v m)).aestronglyMeasurable
  · have e : ∀ s, ∫ x, ‖x ^ n * G v m s x‖ = h v s * (s⁻¹) ^ n * ∫ y, |y| ^ n * phi (y - m) := fun s => by
      have h1 : (fun x => ‖x ^ n * G v m s x‖) = fun x => |x| ^ n * G v m s x := funext fun x => by
        rw [norm_mul, Real.norm_eq_abs, abs_pow, Real.norm_of_nonneg (G_nonneg hv s x)]
      rw [h1, (inner (g := fun x => |x| ^ n) (fun x s => by rw [abs_mul, mul_pow]) i1 s).2]
      rcases le_or_gt s 0 with hs | hs
      · rw [h_nonpos hs]; ring
      · rw [abs_of_pos (inv_pos.2 hs)]
    simp only [e]
    exact (h_mom hv hn).1.mul_const _

theorem mom (hv : 0 < v) {n : ℕ} (hn : (n:ℝ) < v) : Integrable (fun x => x ^ n * f v m x) ∧
    ∫ x, x ^ n * f v m x = (v / 2) ^ ((n:ℝ) / 2) * Real.Gamma ((v - n) / 2) / Real.Gamma (v / 2) * P n m := by
  have hp := int_prod (m := m) hv hn
  have e : ∀ x, x ^ n * f v m x = ∫ s, x ^ n * G v m s x := fun x => by rw [f, integral_const_mul]
  simp only [e]
  refine ⟨hp.integral_prod_right, ?_⟩
  rw [← integral_integral_swap (f := fun s x => x ^ n * G v m s x) hp]
  have e2 : ∀ s, ∫ x, x ^ n * G v m s x = h v s * (s⁻¹) ^ n * P n m := fun s =>
    (inner (g := fun x => x ^ n) (fun x s => mul_pow x s n) (int_P n m) s).2
  simp only [e2]
  rw [integral_mul_const, (h_mom hv hn).2]

theorem int_one (hv : 0 < v) : Integrable (f v m) ∧ ∫ x, f v m x = 1 := by
  have h := mom (m := m) hv (n := 0) (by simpa using hv)
  have hg := (Real.Gamma_pos_of_pos (half_pos hv)).ne'
  simpa [P_zero, hg] using h

/-- the distribution function, as a mixture of normal ones over the chi distribution -/
theorem cdf_mix (hv : 0 < v) (x : ℝ) : ∫ t in Iic x, f v m t = ∫ s, h v s * Phi (x * s - m) := by
  have hp := int_prod (m := m) hv (n := 0) (by simpa using hv)
  simp only [pow_zero, one_mul] at hp
  have hp2 : Integrable (fun q : ℝ × ℝ => G v m q.1 q.2) (volume.prod (volume.restrict (Iic x))) := by
    have := hp.restrict (s := univ ×ˢ Iic x)
    rwa [← Measure.prod_restrict, Measure.restrict_univ] at this
  simp only [f]
  rw [← integral_integral_swap (f := fun s t => G v m s t) hp2]
  congr 1; funext s
  rcases le_or_gt s 0 with hs | hs
  · simp [G_nonpos hs, h_nonpos hs]
  · simp only [G]
    rw [integral_const_mul]
    congr 1
    have := (isDist_normal.affine (m / s) (inv_pos.2 hs)).integral_Iic x
    simp only [div_inv_eq_mul, sub_mul, div_mul_cancel₀ _ hs.ne'] at this
    rw [← this]
    congr 1; funext t; ring

theorem cdf_chi (hv : 0 < v) (x : ℝ) : ∫ t in Iic x, f v m t = ∫ t, Phi (x * (t / √v) - m) * nakD.f (v / 2) (1 / 2) t := by
  have hr : 0 < √v := Real.sqrt_pos.2 hv
  have h2 := Measure.integral_comp_mul_left (fun t => Phi (x * (t / √v) - m) * nakD.f (v / 2) (1 / 2) t) (√v)
  rw [cdf_mix hv, eq_comm, ← mul_right_inj' (inv_pos.2 hr).ne', ← abs_of_pos (inv_pos.2 hr), ← smul_eq_mul, ← h2, abs_of_pos (inv_pos.2 hr),
    ← integral_const_mul]
  congr 1; funext s
  rw [mul_div_cancel_left₀ _ hr.ne']
  rcases le_or_gt s 0 with hs | hs
  · rw [h_nonpos hs, nakD.f_nonpos (by nlinarith)]; ring
  · have e : √v ^ 2 = v := Real.sq_sqrt hv.le
    rw [h, nakD.f_of_pos hs, nakD.f_of_pos (mul_pos hr hs), mul_pow, e, show 1 / 2 * (v * s ^ 2) = v / 2 * s ^ 2 by ring]
    generalize gammaD.g (v / 2) (v / 2 * s ^ 2) = g
    have e2 : (√v)⁻¹ * v = √v := by field_simp; rw [e]
    linear_combination -(Phi (x * s - m) * g * s) * e2

/-! ### The series -/

noncomputable def c (v m x : ℝ) : ℝ := v ^ (v / 2) * Real.exp (-m ^ 2 / 2) / (Real.Gamma (v / 2) * √Real.pi) * (v + x ^ 2) ^ (-((v + 1) / 2))
noncomputable def term (v m x : ℝ) (i : ℕ) : ℝ := Real.Gamma ((v + i + 1) / 2) * (x * m) ^ i * (2 / (v + x ^ 2)) ^ ((i:ℝ) / 2) / i.factorial

theorem int_exp {q k : ℝ} (hv : 0 < v) (hq : 0 < q) :
    IntegrableOn (fun s : ℝ => s ^ v * Real.exp (-q * s ^ (2:ℝ)) * Real.exp (k * s)) (Ioi 0) := by
  refine Integrable.mono' ((int_pow (show -1 < v by linarith) (half_pos hq)).const_mul (Real.exp (k ^ 2 / (2 * q))))
    (Measurable.aestronglyMeasurable (by fun_prop)) ?_
  filter_upwards [ae_restrict_mem measurableSet_Ioi] with s hs
  have hs' : (0:ℝ) < s := hs
  have h1 : 0 ≤ s ^ v := Real.rpow_nonneg hs'.le _
  rw [Real.norm_of_nonneg (by positivity), mul_assoc, ← Real.exp_add, mul_left_comm, ← Real.exp_add]
  refine mul_le_mul_of_nonneg_left (Real.exp_le_exp.2 ?_) h1
  rw [Real.rpow_two]
  have h2 : k * s ≤ k ^ 2 / (2 * q) + q / 2 * s ^ 2 := by
    have : k ^ 2 / (2 * q) + q / 2 * s ^ 2 - k * s = (k - q * s) ^ 2 / (2 * q) := by field_simp; ring
    have h3 : 0 ≤ (k - q * s) ^ 2 / (2 * q) := by positivity
    linarith
  linarith

noncomputable def K (v m : ℝ) : ℝ := 2 * (v / 2) ^ (v / 2) / Real.Gamma (v / 2) * (Real.exp (-m ^ 2 / 2) / √(2 * Real.pi))

theorem G_eq (hv : 0 < v) (x : ℝ) {s : ℝ} (hs : 0 < s) :
    G v m s x = K v m * (s ^ v * Real.exp (-((v + x ^ 2) / 2) * s ^ (2:ℝ)) * Real.exp (x * m * s)) := by
  have e1 : s ^ v = s ^ (v - 1) * s := by rw [Real.rpow_sub_one hs.ne']; field_simp
  have e2 : Real.exp (-(v / 2) * s ^ (2:ℝ)) * Real.exp (-(x * s - m) ^ 2 / 2) =
      Real.exp (-m ^ 2 / 2) * (Real.exp (-((v + x ^ 2) / 2) * s ^ (2:ℝ)) * Real.exp (x * m * s)) := by
    rw [← Real.exp_add, ← Real.exp_add, ← Real.exp_add, Real.rpow_two]; congr 1; ring
  rw [G, h_eq hv hs, phi, e1, K]
  calc _ = 2 * (v / 2) ^ (v / 2) / Real.Gamma (v / 2) * (s ^ (v - 1) * s) / √(2 * Real.pi) *
        (Real.exp (-(v / 2) * s ^ (2:ℝ)) * Real.exp (-(x * s - m) ^ 2 / 2)) := by ring
    _ = _ := by rw [e2]; ring

theorem int_G (hv : 0 < v) (x : ℝ) : Integrable fun s => G v m s x := by
  have h : IntegrableOn (fun s => G v m s x) (Ioi 0) :=
    IntegrableOn.congr_fun ((int_exp (k := x * m) hv (show 0 < (v + x ^ 2) / 2 by positivity)).const_mul (K v m))
      (fun s hs => (G_eq hv x hs).symm) measurableSet_Ioi
  refine (integrableOn_iff_integrable_of_support_subset fun s hs => ?_).1 h
  by_contra hc; exact hs (G_nonpos (not_lt.1 hc) x)

theorem f_pos (hv : 0 < v) (x : ℝ) : 0 < f v m x := by
  refine (integral_pos_iff_support_of_nonneg (fun s => G_nonneg hv s x) (int_G hv x)).2 ?_
  refine lt_of_lt_of_le (b := volume (Ioi (0:ℝ))) (by simp) (measure_mono fun s hs => ?_)
  have hs' : (0:ℝ) < s := hs
  exact (mul_pos (nakD.f_pos (half_pos hv) (half_pos hv) hs') (mul_pos hs' (phi_pos _))).ne'

theorem hasSum (hv : 0 < v) (x : ℝ) : HasSum (fun i => c v m x * term v m x i) (f v m x) := by
  set q := (v + x ^ 2) / 2 with hq
  have hq0 : 0 < q := by positivity
  have h2 : 0 < v / 2 := half_pos hv
  have hG : ∀ s ∈ Ioi (0:ℝ), G v m s x = K v m * (s ^ v * Real.exp (-q * s ^ (2:ℝ)) * Real.exp (x * m * s)) := fun s hs => G_eq hv x hs
  have hf : f v m x = K v m * ∫ s in Ioi (0:ℝ), s ^ v * Real.exp (-q * s ^ (2:ℝ)) * Real.exp (x * m * s) := by
    rw [f, ← integral_const_mul, ← setIntegral_congr_fun measurableSet_Ioi hG]
    exact (setIntegral_eq_integral_of_forall_compl_eq_zero fun s hs => G_nonpos (not_lt.1 hs) x).symm
  have hexp : ∀ y : ℝ, HasSum (fun i : ℕ => y ^ i / i.factorial) (Real.exp y) := fun y => by
    rw [Real.exp_eq_exp_ℝ]; exact NormedSpace.expSeries_div_hasSum_exp y
  have hsum := hasSum_integral_of_dominated_convergence (μ := volume.restrict (Ioi (0:ℝ)))
    (F := fun (i : ℕ) s => s ^ v * Real.exp (-q * s ^ (2:ℝ)) * ((x * m * s) ^ i / i.factorial))
    (f := fun s => s ^ v * Real.exp (-q * s ^ (2:ℝ)) * Real.exp (x * m * s))
    (fun (i : ℕ) s => s ^ v * Real.exp (-q * s ^ (2:ℝ)) * ((|x * m| * s) ^ i / i.factorial))
    (fun i => Measurable.aestronglyMeasurable (by fun_prop))
    (fun i => by
      filter_upwards [ae_restrict_mem measurableSet_Ioi] with s hs
      have hs' : (0:ℝ) < s := hs
      have h1 : 0 ≤ s ^ v := Real.rpow_nonneg hs'.le _
      rw [norm_mul, Real.norm_of_nonneg (by positivity), norm_div, norm_pow, Real.norm_eq_abs, abs_mul (x * m), abs_of_pos hs', Real.norm_natCast])
    (by
      filter_upwards with s
      exact ((hexp (|x * m| * s)).mul_left _).summable)
    (by
      refine (int_exp (k := |x * m|) hv hq0).congr (Eventually.of_forall fun s => ?_)
      simp only [tsum_mul_left, (hexp (|x * m| * s)).tsum_eq])
    (by
      filter_upwards with s
      exact (hexp (x * m * s)).mul_left _)
  rw [hf]
  refine (hsum.mul_left (K v m)).congr_fun fun i => ?_
  have e3 : ∀ s ∈ Ioi (0:ℝ), s ^ v * Real.exp (-q * s ^ (2:ℝ)) * ((x * m * s) ^ i / i.factorial) =
      (x * m) ^ i / i.factorial * (s ^ (v + i) * Real.exp (-q * s ^ (2:ℝ))) := fun s hs => by
    have hs' : (0:ℝ) < s := hs
    rw [Real.rpow_add hs', Real.rpow_natCast, mul_pow]; ring
  have hi0 : (0:ℝ) ≤ i := i.cast_nonneg
  rw [setIntegral_congr_fun measurableSet_Ioi e3, integral_const_mul, integral_rpow_mul_exp_neg_mul_rpow two_pos (by linarith) hq0,
    c, term, K]
  have e4 : v + x ^ 2 = 2 * q := by rw [hq]; ring
  have e5 : v = 2 * (v / 2) := by ring
  have e6 : v ^ (v / 2) = 2 ^ (v / 2) * (v / 2) ^ (v / 2) := by
    rw [← Real.mul_rpow zero_le_two h2.le, mul_div_cancel₀ _ two_ne_zero]
  have e7 : q ^ (-(v + i + 1) / 2) = q ^ (-((v + 1) / 2)) * (q⁻¹) ^ ((i:ℝ) / 2) := by
    rw [Real.inv_rpow hq0.le, ← Real.rpow_neg hq0.le, ← Real.rpow_add hq0]; congr 1; ring
  have e8 : (2:ℝ) ^ (-((v + 1) / 2)) = (2 ^ (v / 2))⁻¹ * (√2)⁻¹ := by
    rw [Real.sqrt_eq_rpow, ← Real.rpow_neg zero_le_two, ← Real.rpow_neg zero_le_two, ← Real.rpow_add two_pos]; congr 1; ring
  rw [e4, Real.mul_rpow zero_le_two hq0.le, show 2 / (2 * q) = q⁻¹ by field_simp, e7, e8, e6, Real.sqrt_mul zero_le_two]
  have h3 : (2:ℝ) ^ (v / 2) ≠ 0 := (Real.rpow_pos_of_pos two_pos _).ne'
  have h4 : √(2:ℝ) ≠ 0 := by positivity
  have h5 : √Real.pi ≠ 0 := (Real.sqrt_pos.2 Real.pi_pos).ne'
  field_simp


theorem f_neg (v m x : ℝ) : f v m (-x) = f v (-m) x := by
  simp only [f, G]
  congr 1; funext s
  rw [show -x * s - m = -(x * s - -m) by ring, phi, phi, neg_sq]

theorem f_ge (hv : 0 < v) (hm : 0 ≤ m) {x : ℝ} (hx : 0 ≤ x) : c v m x * Real.Gamma ((v + 1) / 2) ≤ f v m x := by
  have hg := Real.Gamma_pos_of_pos (half_pos hv)
  have h := le_hasSum (hasSum (m := m) hv x) 0 fun i _ => by
    have hi : 0 < Real.Gamma ((v + i + 1) / 2) := Real.Gamma_pos_of_pos (by positivity)
    unfold c term; positivity
  simpa [term] using h

theorem not_mom (hv : 0 < v) {n : ℕ} (hn : v ≤ n) : ¬ Integrable (fun x => x ^ n * f v m x) := by
  have key : ∀ m, 0 ≤ m → ¬ Integrable (fun x => x ^ n * f v m x) := fun m hm hi => by
    have hg := Real.Gamma_pos_of_pos (half_pos hv)
    have hg1 := Real.Gamma_pos_of_pos (show 0 < (v + 1) / 2 by positivity)
    have hpi := Real.sqrt_pos.2 Real.pi_pos
    set C := v ^ (v / 2) * Real.exp (-m ^ 2 / 2) / (Real.Gamma (v / 2) * √Real.pi) * (v + 1) ^ (-((v + 1) / 2)) * Real.Gamma ((v + 1) / 2) with hC
    have hC0 : 0 < C := by positivity
    refine not_integrableOn_Ioi_inv (a := 1) (Integrable.mono' (hi.integrableOn.const_mul C⁻¹) (by fun_prop) ?_)
    filter_upwards [ae_restrict_mem measurableSet_Ioi] with x hx
    have hx' : (1:ℝ) < x := hx
    have hx0 : 0 < x := by linarith
    rw [Real.norm_of_nonneg (inv_pos.2 hx0).le]
    have h1 := f_ge (m := m) hv hm hx0.le
    have h2 : (v + 1) ^ (-((v + 1) / 2)) * x ^ (-(v + 1)) ≤ (v + x ^ 2) ^ (-((v + 1) / 2)) := by
      rw [show x ^ (-(v + 1)) = (x ^ 2) ^ (-((v + 1) / 2)) by
        rw [← Real.rpow_natCast x 2, ← Real.rpow_mul hx0.le]; congr 1; push_cast; ring, ← Real.mul_rpow (by positivity) (by positivity)]
      exact Real.rpow_le_rpow_of_nonpos (by positivity) (by nlinarith [mul_pos hv (show 0 < x ^ 2 - 1 by nlinarith)]) (by linarith)
    have h3 : C * x ^ (-(v + 1)) ≤ f v m x := by
      refine le_trans ?_ h1
      rw [c, hC]
      have := mul_le_mul_of_nonneg_left h2 (show 0 ≤ v ^ (v / 2) * Real.exp (-m ^ 2 / 2) / (Real.Gamma (v / 2) * √Real.pi) * Real.Gamma ((v + 1) / 2) by positivity)
      linarith
    have h4 : x⁻¹ ≤ x ^ n * x ^ (-(v + 1)) := by
      rw [← Real.rpow_natCast, ← Real.rpow_add hx0, ← Real.rpow_neg_one]
      exact Real.rpow_le_rpow_of_exponent_le hx'.le (by linarith)
    calc x⁻¹ ≤ x ^ n * x ^ (-(v + 1)) := h4
      _ = C⁻¹ * (x ^ n * (C * x ^ (-(v + 1)))) := by field_simp
      _ ≤ _ := by gcongr
  rcases le_total 0 m with hm | hm
  · exact key m hm
  · intro hi
    refine key (-m) (by linarith) ?_
    have := hi.comp_neg.const_mul ((-1) ^ n)
    refine this.congr (Eventually.of_forall fun x => ?_)
    simp only [f_neg]
    rw [← mul_assoc, ← mul_pow]; simp

end Mpsci.nctD
