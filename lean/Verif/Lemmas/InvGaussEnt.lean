import Verif.Lemmas.InvGaussDist
import Verif.Base.Expint
import Mathlib.MeasureTheory.Function.JacobianOneDim
import Mathlib.Analysis.Calculus.ParametricIntegral
import Mathlib.Analysis.SpecialFunctions.Arsinh
import Mathlib.Analysis.SpecialFunctions.Gaussian.GaussianIntegral
import Mathlib.MeasureTheory.Integral.IntegralEqImproper

/-! The entropy of the inverse Gaussian distribution.  With `z = m exp(2 u)` the density becomes a multiple of
`exp(-u) exp(-c cosh² u)`, `c = 2 / m`. -/

namespace Mpsci.InvG

open Classical MeasureTheory Set Filter Topology

/-- the weight -/
noncomputable def w (c u : ℝ) : ℝ := Real.exp (-(c * Real.cosh u ^ 2))

variable {c : ℝ}

theorem w_cont (c : ℝ) : Continuous (w c) := by unfold w; fun_prop

theorem w_neg (u : ℝ) : w c (-u) = w c u := by rw [w, w, Real.cosh_neg]

theorem abs_le_cosh (u : ℝ) : |u| ≤ Real.cosh u := by
  have h1 : |u| ≤ Real.sinh |u| := Real.self_le_sinh_iff.2 (abs_nonneg u)
  have h2 := Real.sinh_lt_cosh |u|
  rw [Real.cosh_abs] at h2
  linarith

theorem abs_sinh_le (u : ℝ) : |Real.sinh u| ≤ Real.cosh u := by
  have := Real.sinh_lt_cosh |u|
  rw [Real.cosh_abs, ← Real.abs_sinh] at this
  exact this.le

theorem pow_w_le (hc : 0 < c) (k : ℕ) (u : ℝ) : Real.cosh u ^ k * w c u ≤ k.factorial * (2 / c) ^ k * Real.exp (-(c / 2) * u ^ 2) := by
  have hy := Real.one_le_cosh u
  set y := Real.cosh u with hyd
  have h1 := Real.pow_div_factorial_le_exp (x := c / 2 * y ^ 2) (by positivity) k
  have h2 : u ^ 2 ≤ y ^ 2 := by
    have := abs_le_cosh u
    rw [← hyd] at this
    exact sq_le_sq' (by linarith [neg_abs_le u]) (by linarith [le_abs_self u])
  have h3 : w c u = Real.exp (-(c / 2 * y ^ 2)) * Real.exp (-(c / 2 * y ^ 2)) := by
    rw [w, ← Real.exp_add]; congr 1; rw [← hyd]; ring
  have h4 : Real.exp (-(c / 2 * y ^ 2)) ≤ Real.exp (-(c / 2) * u ^ 2) :=
    Real.exp_le_exp.2 (by nlinarith [mul_le_mul_of_nonneg_left h2 (half_pos hc).le])
  have h5 : y ^ k * Real.exp (-(c / 2 * y ^ 2)) ≤ k.factorial * (2 / c) ^ k := by
    rw [Real.exp_neg, ← div_eq_mul_inv, div_le_iff₀ (Real.exp_pos _)]
    have hf : (0:ℝ) < k.factorial := by positivity
    have h6 : y ^ k ≤ (y ^ 2) ^ k := pow_le_pow_left₀ (by linarith) (by nlinarith) k
    rw [div_le_iff₀ hf, mul_pow] at h1
    calc y ^ k ≤ (y ^ 2) ^ k := h6
      _ = (2 / c) ^ k * ((c / 2) ^ k * (y ^ 2) ^ k) := by
          rw [← mul_assoc, ← mul_pow, show 2 / c * (c / 2) = 1 by field_simp, one_pow, one_mul]
      _ ≤ (2 / c) ^ k * (Real.exp (c / 2 * y ^ 2) * k.factorial) := by gcongr
      _ = _ := by ring
  rw [h3, ← mul_assoc]
  exact mul_le_mul h5 h4 (Real.exp_pos _).le (by positivity)

theorem int_w (hc : 0 < c) {h : ℝ → ℝ} (hm : Continuous h) {B : ℝ} {k : ℕ} (hle : ∀ u, |h u| ≤ B * Real.cosh u ^ k) :
    Integrable fun u => h u * w c u := by
  have hB : 0 ≤ B := by have := (abs_nonneg _).trans (hle 0); simpa using this
  refine (((integrable_exp_neg_mul_sq (half_pos hc)).const_mul (B * (k.factorial * (2 / c) ^ k)))).mono'
    (hm.mul (w_cont c)).aestronglyMeasurable (Eventually.of_forall fun u => ?_)
  have hw : 0 ≤ w c u := (Real.exp_pos _).le
  rw [Real.norm_eq_abs, abs_mul, abs_of_nonneg hw]
  calc |h u| * w c u ≤ B * Real.cosh u ^ k * w c u := mul_le_mul_of_nonneg_right (hle u) hw
    _ = B * (Real.cosh u ^ k * w c u) := by ring
    _ ≤ B * (k.factorial * (2 / c) ^ k * Real.exp (-(c / 2) * u ^ 2)) := mul_le_mul_of_nonneg_left (pow_w_le hc k u) hB
    _ = _ := by ring

theorem integral_odd {h : ℝ → ℝ} (ho : ∀ u, h (-u) = -h u) : ∫ u, h u = 0 := by
  have h1 := integral_neg_eq_self h volume
  simp only [ho] at h1
  rw [integral_neg] at h1
  linarith

noncomputable def K (c : ℝ) : ℝ := ∫ u, u * Real.sinh u * w c u

theorem u_sinh_le (u : ℝ) : |u * Real.sinh u| ≤ 1 * Real.cosh u ^ 2 := by
  rw [abs_mul, one_mul, pow_two]
  exact mul_le_mul (abs_le_cosh u) (abs_sinh_le u) (abs_nonneg _) (Real.cosh_pos u).le

theorem int_K (hc : 0 < c) : Integrable fun u => u * Real.sinh u * w c u :=
  int_w hc (by fun_prop) u_sinh_le

theorem int_cosh (hc : 0 < c) : Integrable fun u => Real.cosh u * w c u :=
  int_w hc (by fun_prop) (B := 1) (k := 1) fun u => by rw [abs_of_pos (Real.cosh_pos u), pow_one, one_mul]

theorem integral_cosh (hc : 0 < c) : ∫ u, Real.cosh u * w c u = Real.exp (-c) * √(Real.pi / c) := by
  have h1 := integral_image_eq_integral_abs_deriv_smul MeasurableSet.univ
    (fun x _ => (Real.hasDerivAt_sinh x).hasDerivWithinAt) (Real.sinh_injective.injOn) (fun s => Real.exp (-c) * Real.exp (-c * s ^ 2))
  rw [image_univ, Real.sinh_surjective.range_eq, setIntegral_univ, setIntegral_univ, integral_const_mul, integral_gaussian] at h1
  rw [h1]
  congr 1
  funext u
  rw [abs_of_pos (Real.cosh_pos u), smul_eq_mul, ← Real.exp_add, w, Real.cosh_sq]
  congr 2; ring

theorem hasDerivAt_w (u : ℝ) : HasDerivAt (w c) (-(2 * c) * (Real.cosh u * Real.sinh u * w c u)) u := by
  refine ((((Real.hasDerivAt_cosh u).pow 2).const_mul c).neg).exp.congr_deriv ?_
  show Real.exp (-(c * Real.cosh u ^ 2)) * _ = _
  rw [← w]; norm_num; ring

theorem int_bound (hc : 0 < c) : Integrable fun u => (u * Real.sinh u * Real.cosh u ^ 2) * w c u :=
  int_w hc (by fun_prop) (B := 1) (k := 4) fun u => by
    rw [abs_mul, abs_of_pos (pow_pos (Real.cosh_pos u) 2)]
    have := u_sinh_le u
    have h2 : 0 ≤ Real.cosh u ^ 2 := by positivity
    nlinarith

/-- integration by parts with `h w'` -/
theorem parts (hc : 0 < c) {h h' : ℝ → ℝ} (hd : ∀ u, HasDerivAt h (h' u) u)
    (i1 : Integrable fun u => h u * (Real.cosh u * Real.sinh u * w c u)) (i2 : Integrable fun u => h' u * w c u)
    (i3 : Integrable fun u => h u * w c u) :
    ∫ u, h u * (Real.cosh u * Real.sinh u * w c u) = 1 / (2 * c) * ∫ u, h' u * w c u := by
  have i1' : Integrable (h * fun u => -(2 * c) * (Real.cosh u * Real.sinh u * w c u)) := by
    refine (i1.const_mul (-(2 * c))).congr (Eventually.of_forall fun u => ?_)
    simp only [Pi.mul_apply]; ring
  have h1 := integral_mul_deriv_eq_deriv_mul_of_integrable (fun u _ => hd u) (fun u _ => hasDerivAt_w (c := c) u) i1' i2 i3
  have e : ∀ u, h u * (-(2 * c) * (Real.cosh u * Real.sinh u * w c u)) = -(2 * c) * (h u * (Real.cosh u * Real.sinh u * w c u)) :=
    fun u => by ring
  simp only [e] at h1
  rw [integral_const_mul] at h1
  generalize (∫ u, h u * (Real.cosh u * Real.sinh u * w c u)) = I at *
  generalize (∫ u, h' u * w c u) = J at *
  field_simp
  linarith

theorem hasDerivAt_K (hc : 0 < c) : HasDerivAt K (-(1 / (2 * c)) * (Real.exp (-c) * √(Real.pi / c) + K c)) c := by
  have h1 := (hasDerivAt_integral_of_dominated_loc_of_deriv_le (μ := volume) (F := fun c u => u * Real.sinh u * w c u)
    (F' := fun c u => -((u * Real.sinh u * Real.cosh u ^ 2) * w c u)) (x₀ := c) (s := Ioi (c / 2))
    (bound := fun u => |(u * Real.sinh u * Real.cosh u ^ 2) * w (c / 2) u|) (Ioi_mem_nhds (half_lt_self hc))
    (Eventually.of_forall fun x => ((continuous_id.mul Real.continuous_sinh).mul (w_cont x)).aestronglyMeasurable) (int_K hc)
    (int_bound hc).neg.aestronglyMeasurable (Eventually.of_forall fun u x hx => ?_) (int_bound (half_pos hc)).abs
    (Eventually.of_forall fun u x _ => ?_)).2
  · refine h1.congr_deriv ?_
    have hd : ∀ u, HasDerivAt (fun u : ℝ => u * Real.cosh u) (Real.cosh u + u * Real.sinh u) u := fun u =>
      ((hasDerivAt_id' u).mul (Real.hasDerivAt_cosh u)).congr_deriv (by ring)
    have e : ∀ u, u * Real.sinh u * Real.cosh u ^ 2 * w c u = (u * Real.cosh u) * (Real.cosh u * Real.sinh u * w c u) := fun u => by ring
    have e2 : ∀ u, (Real.cosh u + u * Real.sinh u) * w c u = Real.cosh u * w c u + u * Real.sinh u * w c u := fun u => by ring
    have i2 : Integrable fun u => (Real.cosh u + u * Real.sinh u) * w c u := by
      simp only [e2]; exact (int_cosh hc).add (int_K hc)
    have i3 : Integrable fun u => (u * Real.cosh u) * w c u := int_w hc (by fun_prop) (B := 1) (k := 2) fun u => by
      rw [abs_mul, one_mul, pow_two, abs_of_pos (Real.cosh_pos u)]
      exact mul_le_mul_of_nonneg_right (abs_le_cosh u) (Real.cosh_pos u).le
    have h2 := parts hc hd (by simpa only [e] using int_bound hc) i2 i3
    rw [integral_neg]
    simp only [e]
    rw [h2]
    simp only [e2]
    rw [integral_add (int_cosh hc) (int_K hc), integral_cosh hc, K]
    ring
  · rw [norm_neg, Real.norm_eq_abs, abs_mul, abs_mul _ (w (c / 2) u)]
    refine mul_le_mul_of_nonneg_left ?_ (abs_nonneg _)
    rw [w, w, abs_of_pos (Real.exp_pos _), abs_of_pos (Real.exp_pos _), Real.exp_le_exp]
    have : c / 2 < x := hx
    have h2 : 0 ≤ Real.cosh u ^ 2 := by positivity
    nlinarith
  · have h3 : HasDerivAt (fun x => w x u) (w x u * -(1 * Real.cosh u ^ 2)) x :=
      (((hasDerivAt_id' x).mul_const (Real.cosh u ^ 2)).neg).exp
    refine (h3.const_mul (u * Real.sinh u)).congr_deriv ?_
    ring

theorem K_nonneg (c : ℝ) : 0 ≤ K c := by
  refine integral_nonneg fun u => mul_nonneg ?_ (Real.exp_pos _).le
  rcases le_total 0 u with h | h
  · exact mul_nonneg h (Real.sinh_nonneg_iff.2 h)
  · exact mul_nonneg_of_nonpos_of_nonpos h (Real.sinh_nonpos_iff.2 h)

theorem K_le (hc : 1 ≤ c) : K c ≤ Real.exp (-(c - 1)) * K 1 := by
  rw [K, K, ← integral_const_mul]
  refine integral_mono (int_K (by linarith)) ((int_K one_pos).const_mul _) fun u => ?_
  have h0 : 0 ≤ u * Real.sinh u := by
    rcases le_total 0 u with h | h
    · exact mul_nonneg h (Real.sinh_nonneg_iff.2 h)
    · exact mul_nonneg_of_nonpos_of_nonpos h (Real.sinh_nonpos_iff.2 h)
  show u * Real.sinh u * w c u ≤ Real.exp (-(c - 1)) * (u * Real.sinh u * w 1 u)
  have h1 : w c u ≤ Real.exp (-(c - 1)) * w 1 u := by
    rw [w, w, ← Real.exp_add, Real.exp_le_exp]
    have := Real.one_le_cosh u
    nlinarith [mul_nonneg (sub_nonneg.2 hc) (show (0:ℝ) ≤ Real.cosh u ^ 2 - 1 by nlinarith)]
  nlinarith [mul_le_mul_of_nonneg_left h1 h0]

theorem K_eq (hc : 0 < c) : √c * K c = √Real.pi / 2 * e1R c := by
  have hpi := Real.pi_pos
  have hd : ∀ t ∈ Ici c, HasDerivAt (fun t => √t * K t) (-(√Real.pi / 2) * (Real.exp (-t) / t)) t := fun t ht => by
    have ht0 : 0 < t := hc.trans_le ht
    refine ((Real.hasDerivAt_sqrt ht0.ne').mul (hasDerivAt_K ht0)).congr_deriv ?_
    have hs := Real.sqrt_pos.2 ht0
    have hq := Real.sq_sqrt ht0.le
    rw [Real.sqrt_div hpi.le]
    generalize √t = q at *
    rw [← hq]
    field_simp
    ring
  have hlim : Tendsto (fun t => √t * K t) atTop (𝓝 0) := by
    have h1 : Tendsto (fun t : ℝ => Real.exp 1 * K 1 * (t * Real.exp (-t))) atTop (𝓝 (Real.exp 1 * K 1 * 0)) := by
      refine Tendsto.const_mul _ ?_
      have := Real.tendsto_pow_mul_exp_neg_atTop_nhds_zero 1
      simpa using this
    rw [mul_zero] at h1
    refine squeeze_zero' (Eventually.of_forall fun t => mul_nonneg (Real.sqrt_nonneg t) (K_nonneg t)) ?_ h1
    filter_upwards [eventually_ge_atTop 1] with t ht
    have h2 : √t ≤ t := by rw [Real.sqrt_le_left (by linarith)]; nlinarith
    have h3 := K_le ht
    have h4 : Real.exp (-(t - 1)) = Real.exp 1 * Real.exp (-t) := by rw [← Real.exp_add]; congr 1; ring
    rw [h4] at h3
    calc √t * K t ≤ t * (Real.exp 1 * Real.exp (-t) * K 1) := mul_le_mul h2 h3 (K_nonneg t) (by linarith)
      _ = _ := by ring
  have hint : IntegrableOn (fun t => -(√Real.pi / 2) * (Real.exp (-t) / t)) (Ioi c) := by
    refine Integrable.const_mul ?_ _
    refine ((integrableOn_exp_neg_Ioi c).div_const c).mono' (Measurable.aestronglyMeasurable (by fun_prop)) ?_
    filter_upwards [ae_restrict_mem measurableSet_Ioi] with t ht
    have ht : c < t := ht
    have ht0 : 0 < t := hc.trans ht
    rw [Real.norm_eq_abs, abs_of_pos (div_pos (Real.exp_pos _) ht0)]
    exact div_le_div_of_nonneg_left (Real.exp_pos _).le hc ht.le
  have h := integral_Ioi_of_hasDerivAt_of_tendsto' hd hint hlim
  rw [integral_const_mul, ← e1R] at h
  linarith

/-! ### The integrals with `exp(-u)` -/

theorem int_exp_mul (hc : 0 < c) {h : ℝ → ℝ} (hm : Continuous h) {B : ℝ} {k : ℕ} (hle : ∀ u, |h u| ≤ B * Real.cosh u ^ k) :
    Integrable fun u => h u * (Real.exp (-u) * w c u) := by
  have h1 : Integrable fun u => (h u * Real.exp (-u)) * w c u := int_w hc (by fun_prop) (B := 2 * B) (k := k + 1) fun u => by
    have h2 : Real.exp (-u) ≤ 2 * Real.cosh u := by rw [Real.cosh_eq]; linarith [Real.exp_pos u]
    rw [abs_mul, abs_of_pos (Real.exp_pos _)]
    calc |h u| * Real.exp (-u) ≤ B * Real.cosh u ^ k * (2 * Real.cosh u) :=
          mul_le_mul (hle u) h2 (Real.exp_pos _).le ((abs_nonneg _).trans (hle u))
      _ = _ := by ring
  simpa only [mul_assoc] using h1

theorem integral_even (hc : 0 < c) {h : ℝ → ℝ} (hm : Continuous h) {B : ℝ} {k : ℕ} (hle : ∀ u, |h u| ≤ B * Real.cosh u ^ k)
    (he : ∀ u, h (-u) = h u) : ∫ u, h u * (Real.exp (-u) * w c u) = ∫ u, (h u * Real.cosh u) * w c u := by
  have i1 : Integrable fun u => (h u * Real.cosh u) * w c u := int_w hc (by fun_prop) (B := B) (k := k + 1) fun u => by
    rw [abs_mul, abs_of_pos (Real.cosh_pos u), pow_succ, ← mul_assoc]
    exact mul_le_mul_of_nonneg_right (hle u) (Real.cosh_pos u).le
  have i2 : Integrable fun u => (h u * Real.sinh u) * w c u := int_w hc (by fun_prop) (B := B) (k := k + 1) fun u => by
    rw [abs_mul, pow_succ, ← mul_assoc]
    exact mul_le_mul (hle u) (abs_sinh_le u) (abs_nonneg _) ((abs_nonneg _).trans (hle u))
  have e : ∀ u, h u * (Real.exp (-u) * w c u) = (h u * Real.cosh u) * w c u - (h u * Real.sinh u) * w c u := fun u => by
    rw [← Real.cosh_sub_sinh]; ring
  simp only [e]
  have e0 : ∫ u, (h u * Real.sinh u) * w c u = 0 := integral_odd fun u => by rw [he, Real.sinh_neg, w_neg]; ring
  rw [integral_sub i1 i2, e0, sub_zero]

theorem integral_e0 (hc : 0 < c) : ∫ u, (1:ℝ) * (Real.exp (-u) * w c u) = Real.exp (-c) * √(Real.pi / c) := by
  rw [integral_even hc continuous_const (B := 1) (k := 0) (by simp) (fun _ => rfl)]
  simp only [one_mul]
  exact integral_cosh hc

theorem integral_e1 (hc : 0 < c) : ∫ u, u * (Real.exp (-u) * w c u) = -K c := by
  have i1 : Integrable fun u => (u * Real.cosh u) * w c u := int_w hc (by fun_prop) (B := 1) (k := 2) fun u => by
      rw [abs_mul, one_mul, pow_two, abs_of_pos (Real.cosh_pos u)]
      exact mul_le_mul_of_nonneg_right (abs_le_cosh u) (Real.cosh_pos u).le
  have e : ∀ u, u * (Real.exp (-u) * w c u) = (u * Real.cosh u) * w c u - u * Real.sinh u * w c u := fun u => by
    rw [← Real.cosh_sub_sinh]; ring
  simp only [e]
  rw [integral_sub i1 (int_K hc), integral_odd (fun u => by rw [Real.cosh_neg, w_neg]; ring), zero_sub, K]

theorem sinh_sq_le (u : ℝ) : |Real.sinh u ^ 2| ≤ 1 * Real.cosh u ^ 2 := by
  rw [abs_of_nonneg (sq_nonneg _), Real.cosh_sq]; linarith

theorem integral_e2 (hc : 0 < c) : ∫ u, Real.sinh u ^ 2 * (Real.exp (-u) * w c u) = 1 / (2 * c) * (Real.exp (-c) * √(Real.pi / c)) := by
  rw [integral_even hc (by fun_prop) sinh_sq_le fun u => by rw [Real.sinh_neg, neg_sq]]
  have e : ∀ u, (Real.sinh u ^ 2 * Real.cosh u) * w c u = Real.sinh u * (Real.cosh u * Real.sinh u * w c u) := fun u => by ring
  simp only [e]
  rw [parts hc (fun u => Real.hasDerivAt_sinh u) ?_ (int_cosh hc) ?_, integral_cosh hc]
  · simp only [← e]
    refine int_w hc (by fun_prop) (B := 1) (k := 3) fun u => ?_
    rw [abs_mul, abs_of_pos (Real.cosh_pos u), pow_succ (Real.cosh u), ← mul_assoc]
    exact mul_le_mul_of_nonneg_right (sinh_sq_le u) (Real.cosh_pos u).le
  · exact int_w hc (by fun_prop) (B := 1) (k := 1) fun u => by rw [pow_one, one_mul]; exact abs_sinh_le u

end Mpsci.InvG

namespace Mpsci.igD

open Classical MeasureTheory Set Filter Topology InvG

variable {m : ℝ}

theorem image_exp (hm : 0 < m) : (fun u => m * Real.exp (2 * u)) '' univ = Ioi 0 := by
  ext z
  constructor
  · rintro ⟨u, _, rfl⟩
    exact mul_pos hm (Real.exp_pos _)
  · intro hz
    have hz : 0 < z := hz
    refine ⟨Real.log (z / m) / 2, trivial, ?_⟩
    show m * Real.exp (2 * (Real.log (z / m) / 2)) = z
    rw [mul_div_cancel₀ _ (two_ne_zero (α := ℝ)), Real.exp_log (by positivity)]
    field_simp

theorem f_exp (hm : 0 < m) (u : ℝ) : (m * (2 * Real.exp (2 * u))) * f m (m * Real.exp (2 * u)) =
    2 / √(2 * Real.pi * m) * Real.exp (2 / m) * (Real.exp (-u) * w (2 / m) u) := by
  have hz : 0 < m * Real.exp (2 * u) := mul_pos hm (Real.exp_pos _)
  have h2 : Real.exp (2 * u) = Real.exp u ^ 2 := by rw [← Real.exp_nat_mul]; norm_num
  have hsq : √(m * Real.exp (2 * u)) = √m * Real.exp u := by
    rw [Real.sqrt_mul hm.le, h2, Real.sqrt_sq (Real.exp_pos u).le]
  have hE := Real.exp_pos u
  have ha : -a m (m * Real.exp (2 * u)) ^ 2 / 2 = 2 / m + -(2 / m * Real.cosh u ^ 2) := by
    have hq := Real.sq_sqrt hm.le
    rw [a, div_pow, hsq, mul_pow, hq, h2, Real.cosh_eq, Real.exp_neg]
    field_simp
    ring
  rw [f_of_pos hz, phi, ha, Real.exp_add, hsq, Real.sqrt_mul (show 0 ≤ 2 * Real.pi by positivity), w, Real.exp_neg u, h2]
  have hsm := Real.sqrt_pos.2 hm
  have hsp : 0 < √(2 * Real.pi) := Real.sqrt_pos.2 (by positivity)
  field_simp

theorem log_f_exp (hm : 0 < m) (u : ℝ) : Real.log (f m (m * Real.exp (2 * u))) =
    -(1 / 2 * Real.log (2 * Real.pi) + 3 / 2 * Real.log m) - 3 * u - 2 / m * Real.sinh u ^ 2 := by
  have hz : 0 < m * Real.exp (2 * u) := mul_pos hm (Real.exp_pos _)
  have h2 : Real.exp (2 * u) = Real.exp u ^ 2 := by rw [← Real.exp_nat_mul]; norm_num
  have hE := Real.exp_pos u
  have e : (m * Real.exp (2 * u) / m - 1) ^ 2 / (2 * (m * Real.exp (2 * u))) = 2 / m * Real.sinh u ^ 2 := by
    rw [h2, Real.sinh_eq, Real.exp_neg]
    field_simp
  rw [log_f hz, e, Real.log_mul hm.ne' (Real.exp_pos _).ne', Real.log_exp]
  ring

theorem hasEnt (hm : 0 < m) : HasEnt (f m)
    ((Real.log (2 * Real.pi) + 3 * Real.log m + 1) / 2 - 3 * (Real.exp (2 / m) * e1R (2 / m)) / 2) := by
  have hc : 0 < 2 / m := by positivity
  have hpi := Real.pi_pos
  have hd : ∀ u ∈ (univ : Set ℝ), HasDerivWithinAt (fun u => m * Real.exp (2 * u)) (m * (2 * Real.exp (2 * u))) univ u := fun u _ =>
    ((((hasDerivAt_id' u).const_mul 2).exp).const_mul m).hasDerivWithinAt.congr_deriv (by ring)
  have hinj : InjOn (fun u : ℝ => m * Real.exp (2 * u)) univ := fun x _ y _ h => by
    have := Real.exp_injective (mul_left_cancel₀ hm.ne' h)
    linarith
  set A := 2 / √(2 * Real.pi * m) * Real.exp (2 / m) with hA
  set D := 1 / 2 * Real.log (2 * Real.pi) + 3 / 2 * Real.log m with hD
  have hAC : A * (Real.exp (-(2 / m)) * √(Real.pi / (2 / m))) = 1 := by
    have e1 : √(2 * Real.pi * m) = 2 * √(Real.pi / (2 / m)) := by
      rw [show 2 * Real.pi * m = 2 ^ 2 * (Real.pi / (2 / m)) by field_simp, Real.sqrt_mul (by positivity),
        Real.sqrt_sq (by norm_num)]
    have e2 : 0 < √(Real.pi / (2 / m)) := Real.sqrt_pos.2 (by positivity)
    rw [hA, e1, Real.exp_neg]
    have := Real.exp_pos (2 / m)
    field_simp
  have eg : (fun u => |m * (2 * Real.exp (2 * u))| • (f m (m * Real.exp (2 * u)) * Real.log (f m (m * Real.exp (2 * u))))) =
      fun u => (-(A * D)) * (1 * (Real.exp (-u) * w (2 / m) u)) - (3 * A) * (u * (Real.exp (-u) * w (2 / m) u)) -
        (2 / m * A) * (Real.sinh u ^ 2 * (Real.exp (-u) * w (2 / m) u)) := by
    funext u
    rw [abs_of_pos (mul_pos hm (mul_pos two_pos (Real.exp_pos _))), smul_eq_mul, ← mul_assoc, f_exp hm, log_f_exp hm, ← hA, ← hD]
    ring
  have i0 := (int_exp_mul hc continuous_const (h := fun _ => (1:ℝ)) (B := 1) (k := 0) (by simp)).const_mul (-(A * D))
  have i1 := (int_exp_mul hc continuous_id (h := fun u => u) (B := 1) (k := 1)
    (by intro u; rw [pow_one, one_mul]; exact abs_le_cosh u)).const_mul (3 * A)
  have i2 := (int_exp_mul hc (h := fun u => Real.sinh u ^ 2) (by fun_prop) sinh_sq_le).const_mul (2 / m * A)
  have hz : ∀ z, z ∉ Ioi (0:ℝ) → f m z * Real.log (f m z) = 0 := fun z hz => by
    rw [f_nonpos (not_lt.1 hz), zero_mul]
  have hI := integrableOn_image_iff_integrableOn_abs_deriv_smul MeasurableSet.univ hd hinj (fun z => f m z * Real.log (f m z))
  have hV := integral_image_eq_integral_abs_deriv_smul MeasurableSet.univ hd hinj (fun z => f m z * Real.log (f m z))
  rw [image_exp hm, eg] at hI hV
  refine ⟨(isDist hm).integrable, (isDist hm).integral_one, ?_, ?_⟩
  · refine (integrableOn_iff_integrable_of_support_subset fun z h => ?_).1 (hI.2 ((i0.sub i1).sub i2).integrableOn)
    by_contra h1
    exact h (hz z h1)
  · have e0 : ∫ z, f m z * Real.log (f m z) = ∫ z in Ioi 0, f m z * Real.log (f m z) :=
      (setIntegral_eq_integral_of_forall_compl_eq_zero hz).symm
    have i01 : Integrable fun u => (-(A * D)) * (1 * (Real.exp (-u) * w (2 / m) u)) - (3 * A) * (u * (Real.exp (-u) * w (2 / m) u)) := i0.sub i1
    rw [e0, hV, setIntegral_univ, integral_sub i01 i2, integral_sub i0 i1, integral_const_mul (-(A * D)), integral_const_mul (3 * A),
      integral_const_mul (2 / m * A), integral_e0 hc, integral_e1 hc, integral_e2 hc]
    have hK := K_eq hc
    have hsq : 0 < √(2 / m) := Real.sqrt_pos.2 hc
    have hAK : A * InvG.K (2 / m) = 1 / 2 * (Real.exp (2 / m) * e1R (2 / m)) := by
      have hp2 : 0 < √Real.pi := Real.sqrt_pos.2 hpi
      have hK' : InvG.K (2 / m) = √Real.pi / 2 * e1R (2 / m) / √(2 / m) := by rw [← hK]; field_simp
      have e1 : √(2 * Real.pi * m) = 2 * (√Real.pi / √(2 / m)) := by
        rw [← Real.sqrt_div hpi.le, show 2 * Real.pi * m = 2 ^ 2 * (Real.pi / (2 / m)) by field_simp, Real.sqrt_mul (by positivity),
          Real.sqrt_sq (by norm_num)]
      rw [hA, hK', e1]
      field_simp
    generalize Real.exp (-(2 / m)) * √(Real.pi / (2 / m)) = C at *
    have e2 : 2 / m * A * (1 / (2 * (2 / m)) * C) = 1 / 2 * (A * C) := by field_simp
    rw [e2, hAC, show -(A * D) * C = -(D * (A * C)) by ring, hAC, show 3 * A * -InvG.K (2 / m) = -(3 * (A * InvG.K (2 / m))) by ring, hAK, hD]
    ring

end Mpsci.igD
