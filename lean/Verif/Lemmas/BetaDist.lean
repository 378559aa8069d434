import Verif.Base.Special
import Verif.Lemmas.GammaInt
import Verif.Lemmas.Psi
import Verif.Lemmas.Shape
import Mathlib.Analysis.Calculus.ParametricIntegral
import Mathlib.MeasureTheory.Integral.IntervalIntegral.FundThmCalculus

/-! The beta distribution: density `g a b`, distribution function `P a b`, quantiles `Q a b`, expectations. -/

namespace Mpsci.betaD

open Classical MeasureTheory Set Filter Topology

variable {a b : ℝ}

noncomputable def w (a b x : ℝ) : ℝ := x ^ (a - 1) * (1 - x) ^ (b - 1)
noncomputable def g (a b x : ℝ) : ℝ := w a b x / betaFn a b
noncomputable def P (a b x : ℝ) : ℝ := betaInt a b 0 x / betaFn a b

theorem w_pos {x : ℝ} (h0 : 0 < x) (h1 : x < 1) : 0 < w a b x :=
  mul_pos (Real.rpow_pos_of_pos h0 _) (Real.rpow_pos_of_pos (by linarith) _)
theorem g_pos (ha : 0 < a) (hb : 0 < b) {x : ℝ} (h0 : 0 < x) (h1 : x < 1) : 0 < g a b x :=
  div_pos (w_pos h0 h1) (betaFn_pos ha hb)
theorem g_nonneg (ha : 0 < a) (hb : 0 < b) {x : ℝ} (h0 : 0 ≤ x) (h1 : x ≤ 1) : 0 ≤ g a b x :=
  div_nonneg (betaIntegrand_nonneg h0 h1) (betaFn_pos ha hb).le

theorem P_zero : P a b 0 = 0 := by simp [P, betaInt]
theorem P_one (ha : 0 < a) (hb : 0 < b) : P a b 1 = 1 := by
  rw [P, betaInt_full ha hb, div_self (betaFn_pos ha hb).ne']
theorem P_compl (ha : 0 < a) (hb : 0 < b) {x : ℝ} (h0 : 0 ≤ x) (h1 : x ≤ 1) : P b a (1 - x) = 1 - P a b x := by
  have h := betaInt_compl ha hb h0 h1
  have hp := (betaFn_pos ha hb).ne'
  have e : betaFn b a = betaFn a b := by rw [betaFn, betaFn, mul_comm, add_comm]
  rw [P, P, e, eq_sub_iff_add_eq, ← add_div, add_comm, h, div_self hp]

theorem upper (ha : 0 < a) (hb : 0 < b) {x : ℝ} (h0 : 0 ≤ x) (h1 : x ≤ 1) : betaInt a b x 1 / betaFn a b = 1 - P a b x := by
  have h := betaInt_add ha hb h0 h1 zero_le_one le_rfl
  have hp := (betaFn_pos ha hb).ne'
  rw [betaInt_full ha hb] at h
  rw [P, eq_sub_iff_add_eq, ← add_div, add_comm, h, div_self hp]
theorem between (ha : 0 < a) (hb : 0 < b) {x y : ℝ} (h0 : 0 ≤ x) (h1 : x ≤ 1) (h2 : 0 ≤ y) (h3 : y ≤ 1) :
    betaInt a b x y / betaFn a b = P a b y - P a b x := by
  rw [P, P, ← betaInt_add ha hb h0 h1 h2 h3]; ring

theorem hasDerivAt_P (ha : 0 < a) (hb : 0 < b) {x : ℝ} (h0 : 0 < x) (h1 : x < 1) : HasDerivAt (P a b) (g a b x) x := by
  have hc : ContinuousAt (fun t : ℝ => t ^ (a - 1) * (1 - t) ^ (b - 1)) x := by
    refine ContinuousAt.mul (Real.continuousAt_rpow_const _ _ (Or.inl h0.ne')) ?_
    exact (continuousAt_const.sub continuousAt_id).rpow_const (Or.inl (sub_pos.2 h1).ne')
  have hm : StronglyMeasurableAtFilter (fun t : ℝ => t ^ (a - 1) * (1 - t) ^ (b - 1)) (𝓝 x) volume :=
    Measurable.stronglyMeasurable (by fun_prop) |>.stronglyMeasurableAtFilter
  have h := intervalIntegral.integral_hasDerivAt_right (betaIntegrable' ha hb le_rfl zero_le_one h0.le h1.le) hm hc
  exact h.div_const _

theorem P_cont (ha : 0 < a) (hb : 0 < b) : ContinuousOn (P a b) (Icc 0 1) := by
  have h : ContinuousOn (fun x => ∫ t in (0:ℝ)..x, t ^ (a - 1) * (1 - t) ^ (b - 1)) (uIcc 0 1) :=
    intervalIntegral.continuousOn_primitive_interval' (betaIntegrable ha hb) (by simp)
  rw [uIcc_of_le zero_le_one] at h
  exact h.div_const _

/-- distribution function and density on the line -/
noncomputable def F (a b x : ℝ) : ℝ := if x ≤ 0 then 0 else if 1 ≤ x then 1 else P a b x
noncomputable def f (a b x : ℝ) : ℝ := if x < 0 then 0 else if 1 < x then 0 else g a b x

theorem F_le {x : ℝ} (h : x ≤ 0) : F a b x = 0 := if_pos h
theorem F_ge {x : ℝ} (h : 1 ≤ x) : F a b x = 1 := by rw [F, if_neg (by linarith), if_pos h]
theorem F_mid (ha : 0 < a) (hb : 0 < b) {x : ℝ} (h0 : 0 ≤ x) (h1 : x ≤ 1) : F a b x = P a b x := by
  rcases h0.eq_or_lt with rfl | h0
  · rw [F_le le_rfl, P_zero]
  · rcases h1.eq_or_lt with rfl | h1
    · rw [F_ge le_rfl, P_one ha hb]
    · rw [F, if_neg h0.not_ge, if_neg h1.not_ge]
theorem f_mid {x : ℝ} (h0 : 0 ≤ x) (h1 : x ≤ 1) : f a b x = g a b x := by rw [f, if_neg h0.not_gt, if_neg h1.not_gt]
theorem f_out {x : ℝ} (h : x ∉ Icc (0:ℝ) 1) : f a b x = 0 := by
  unfold f; split_ifs with h0 h1
  · rfl
  · rfl
  · exact absurd ⟨not_lt.1 h0, not_lt.1 h1⟩ h
theorem f_nonneg (ha : 0 < a) (hb : 0 < b) (x : ℝ) : 0 ≤ f a b x := by
  by_cases h : x ∈ Icc (0:ℝ) 1
  · rw [f_mid h.1 h.2]; exact g_nonneg ha hb h.1 h.2
  · rw [f_out h]

theorem isDist (ha : 0 < a) (hb : 0 < b) : IsDist (F a b) (f a b) :=
  isDist_Icc zero_lt_one (fun _ => F_le) (fun _ => F_ge) (fun x h0 h1 => F_mid ha hb h0.le h1.le) P_zero (P_one ha hb)
    (P_cont ha hb) (fun x hx => f_out fun h => hx.not_ge h.1) (fun x hx => f_out fun h => hx.not_ge h.2) (f_nonneg ha hb 0)
    (f_nonneg ha hb 1) (fun x h0 h1 => by rw [f_mid h0.le h1.le]; exact hasDerivAt_P ha hb h0 h1) (fun x _ _ => f_nonneg ha hb x)

theorem P_strictMonoOn (ha : 0 < a) (hb : 0 < b) : StrictMonoOn (P a b) (Icc 0 1) := by
  refine strictMonoOn_of_deriv_pos (convex_Icc 0 1) (P_cont ha hb) fun x hx => ?_
  rw [interior_Icc] at hx
  rw [(hasDerivAt_P ha hb hx.1 hx.2).deriv]; exact g_pos ha hb hx.1 hx.2

theorem P_pos (ha : 0 < a) (hb : 0 < b) {x : ℝ} (h0 : 0 < x) (h1 : x ≤ 1) : 0 < P a b x := by
  rw [← P_zero (a := a) (b := b)]; exact P_strictMonoOn ha hb ⟨le_rfl, zero_le_one⟩ ⟨h0.le, h1⟩ h0
theorem P_lt_one (ha : 0 < a) (hb : 0 < b) {x : ℝ} (h0 : 0 ≤ x) (h1 : x < 1) : P a b x < 1 := by
  rw [← P_one ha hb]; exact P_strictMonoOn ha hb ⟨h0, h1.le⟩ ⟨zero_le_one, le_rfl⟩ h1

theorem exists_Q (ha : 0 < a) (hb : 0 < b) {p : ℝ} (h0 : 0 < p) (h1 : p < 1) : ∃ x, (0 < x ∧ x < 1) ∧ P a b x = p := by
  obtain ⟨x, hx, e⟩ := intermediate_value_Icc zero_le_one (P_cont ha hb)
    (show p ∈ Icc (P a b 0) (P a b 1) from ⟨by rw [P_zero]; exact h0.le, by rw [P_one ha hb]; exact h1.le⟩)
  refine ⟨x, ⟨hx.1.lt_of_ne fun h => ?_, hx.2.lt_of_ne fun h => ?_⟩, e⟩
  · rw [← h, P_zero] at e; linarith
  · rw [h, P_one ha hb] at e; linarith

/-- quantiles -/
noncomputable def Q (a b p : ℝ) : ℝ := if h : ∃ x, (0 < x ∧ x < 1) ∧ P a b x = p then h.choose else 1 / 2

theorem Q_mem (p : ℝ) : 0 < Q a b p ∧ Q a b p < 1 := by
  unfold Q; split_ifs with h
  · exact h.choose_spec.1
  · norm_num
theorem P_Q (ha : 0 < a) (hb : 0 < b) {p : ℝ} (h0 : 0 < p) (h1 : p < 1) : P a b (Q a b p) = p := by
  have h := exists_Q ha hb h0 h1
  unfold Q; rw [dif_pos h]; exact h.choose_spec.2
theorem F_Q (ha : 0 < a) (hb : 0 < b) (p : ℝ) (h0 : 0 < p) (h1 : p < 1) : F a b (Q a b p) = p := by
  obtain ⟨hx, hy⟩ := Q_mem (a := a) (b := b) p
  rw [F_mid ha hb hx.le hy.le, P_Q ha hb h0 h1]

/-! ### Expectations -/

/-- `h` has expectation `v` under the beta distribution. -/
def E (a b : ℝ) (h : ℝ → ℝ) (v : ℝ) : Prop := Int01 (fun p => h (Q a b p)) v

theorem E_iff (ha : 0 < a) (hb : 0 < b) {h : ℝ → ℝ} (hm : Measurable h) : IntegrableOn (fun p => h (Q a b p)) (Ioo 0 1) ↔
    IntegrableOn (fun x => h x * w a b x) (Ioo 0 1) := by
  obtain ⟨e, _⟩ := (isDist ha hb).expect (F_Q ha hb) (h := h) hm.aestronglyMeasurable
  have hB := (betaFn_pos ha hb).ne'
  have e1 : (fun x => h x * f a b x) =ᵐ[volume] (Ioo (0:ℝ) 1).indicator fun x => h x * w a b x / betaFn a b := by
    have h1 : ∀ᵐ x : ℝ, x ≠ 0 ∧ x ≠ 1 := by
      rw [Filter.eventually_and]; constructor <;> simp [ae_iff, measure_singleton]
    filter_upwards [h1] with x hx
    by_cases hx1 : x ∈ Ioo (0:ℝ) 1
    · rw [indicator_of_mem hx1, f_mid hx1.1.le hx1.2.le, g, mul_div_assoc]
    · rw [indicator_of_notMem hx1, f_out, mul_zero]
      exact fun h2 => hx1 ⟨h2.1.lt_of_ne hx.1.symm, h2.2.lt_of_ne hx.2⟩
  rw [e, integrable_congr e1, integrable_indicator_iff measurableSet_Ioo]
  constructor
  · intro h1
    refine (h1.mul_const (betaFn a b)).congr (Eventually.of_forall fun x => ?_)
    simp only [div_mul_cancel₀ _ hB]
  · intro h1; exact h1.div_const _

theorem E_of (ha : 0 < a) (hb : 0 < b) {h : ℝ → ℝ} {v : ℝ} (hm : Measurable h)
    (hi : IntegrableOn (fun x => h x * w a b x) (Ioo 0 1))
    (hv : ∫ x in Ioo (0:ℝ) 1, h x * w a b x = v * betaFn a b) : E a b h v := by
  refine ⟨(E_iff ha hb hm).2 hi, ?_⟩
  obtain ⟨_, e⟩ := (isDist ha hb).expect (F_Q ha hb) (h := h) hm.aestronglyMeasurable
  have hB := (betaFn_pos ha hb).ne'
  have e1 : (fun x => h x * f a b x) =ᵐ[volume] (Ioo (0:ℝ) 1).indicator fun x => h x * w a b x / betaFn a b := by
    have h1 : ∀ᵐ x : ℝ, x ≠ 0 ∧ x ≠ 1 := by
      rw [Filter.eventually_and]; constructor <;> simp [ae_iff, measure_singleton]
    filter_upwards [h1] with x hx
    by_cases hx1 : x ∈ Ioo (0:ℝ) 1
    · rw [indicator_of_mem hx1, f_mid hx1.1.le hx1.2.le, g, mul_div_assoc]
    · rw [indicator_of_notMem hx1, f_out, mul_zero]
      exact fun h2 => hx1 ⟨h2.1.lt_of_ne hx.1.symm, h2.2.lt_of_ne hx.2⟩
  rw [e, integral_congr_ae e1, integral_indicator measurableSet_Ioo, integral_div, hv, mul_div_cancel_right₀ _ hB]

theorem w_int (ha : 0 < a) (hb : 0 < b) : IntegrableOn (w a b) (Ioo 0 1) := by
  have := betaIntegrable ha hb
  rwa [intervalIntegrable_iff_integrableOn_Ioo_of_le zero_le_one] at this
theorem w_val (ha : 0 < a) (hb : 0 < b) : ∫ x in Ioo (0:ℝ) 1, w a b x = betaFn a b := by
  rw [← betaInt_full ha hb, betaInt, intervalIntegral.integral_of_le zero_le_one, integral_Ioc_eq_integral_Ioo]; rfl

theorem w_mul {s t x : ℝ} (h0 : 0 < x) (h1 : x < 1) : x ^ s * (1 - x) ^ t * w a b x = w (a + s) (b + t) x := by
  have h2 : 0 < 1 - x := by linarith
  rw [w, w, show a + s - 1 = s + (a - 1) by ring, show b + t - 1 = t + (b - 1) by ring, Real.rpow_add h0, Real.rpow_add h2]; ring

/-- powers -/
theorem E_rpow (ha : 0 < a) (hb : 0 < b) {s t : ℝ} (hs : 0 < a + s) (ht : 0 < b + t) :
    E a b (fun x => x ^ s * (1 - x) ^ t) (betaFn (a + s) (b + t) / betaFn a b) := by
  refine E_of ha hb (by fun_prop) ((w_int hs ht).congr_fun (fun x hx => (w_mul hx.1 hx.2).symm) measurableSet_Ioo) ?_
  rw [setIntegral_congr_fun measurableSet_Ioo (fun x hx => w_mul hx.1 hx.2), w_val hs ht, div_mul_cancel₀ _ (betaFn_pos ha hb).ne']

/-- powers that have no expectation -/
theorem not_E_rpow (ha : 0 < a) (hb : 0 < b) {s t : ℝ} (ht : b + t ≤ 0) :
    ¬ IntegrableOn (fun p => Q a b p ^ s * (1 - Q a b p) ^ t) (Ioo 0 1) := by
  intro h
  have h1 := (E_iff ha hb (h := fun x => x ^ s * (1 - x) ^ t) (by fun_prop)).1 h
  have h2 : IntegrableOn (w (a + s) (b + t)) (Ioo 0 1) := h1.congr_fun (fun x hx => w_mul hx.1 hx.2) measurableSet_Ioo
  have h3 : IntegrableOn (fun x => w (b + t) (a + s) x) (Ioo 0 1) := by
    refine integrableOn_reflect (h2.congr_fun (fun x _ => ?_) measurableSet_Ioo)
    simp only [w, sub_sub_cancel, mul_comm]
  -- near 0 the other factor is bounded below
  have hc : ∃ c > 0, ∀ x ∈ Ioo (0:ℝ) (1 / 2), c ≤ (1 - x) ^ (a + s - 1) := by
    rcases le_total 0 (a + s - 1) with h | h
    · refine ⟨(1 / 2) ^ (a + s - 1), by positivity, fun x hx => ?_⟩
      exact Real.rpow_le_rpow (by norm_num) (by linarith [hx.2]) h
    · refine ⟨1, one_pos, fun x hx => ?_⟩
      exact Real.one_le_rpow_of_pos_of_le_one_of_nonpos (by linarith [hx.2]) (by linarith [hx.1]) h
  obtain ⟨c, hc0, hc⟩ := hc
  have h4 := (h3.mono_set (Ioo_subset_Ioo le_rfl (by norm_num : (1 / 2 : ℝ) ≤ 1))).const_mul c⁻¹
  have h5 : IntegrableOn (fun x : ℝ => x ^ (b + t - 1)) (Ioo 0 (1 / 2)) := by
    refine Integrable.mono' h4 (Measurable.aestronglyMeasurable (by fun_prop)) ?_
    refine (ae_restrict_iff' measurableSet_Ioo).2 (Eventually.of_forall fun x hx => ?_)
    have hx0 := hx.1
    have h6 := hc x hx
    have h7 : 0 < x ^ (b + t - 1) := Real.rpow_pos_of_pos hx0 _
    rw [Real.norm_of_nonneg h7.le, w, inv_mul_eq_div, le_div_iff₀ hc0]
    exact mul_le_mul_of_nonneg_left h6 h7.le
  exact absurd ((intervalIntegral.integrableOn_Ioo_rpow_iff (by norm_num)).1 h5) (by linarith)

end Mpsci.betaD

namespace Mpsci.betaD

open Classical MeasureTheory Set Filter Topology

variable {a b : ℝ}

theorem log_bound (ha : 0 < a) {s x : ℝ} (hs : a / 2 < s) (h0 : 0 < x) (h1 : x < 1) :
    ‖Real.log x * w s b x‖ ≤ 4 / a * w (a / 4) b x := by
  have h2 : 0 < 1 - x := by linarith
  have h3 := Real.abs_log_mul_self_rpow_lt x (a / 4) h0 h1.le (by positivity)
  have h4 : x ^ (s - 1) ≤ x ^ (a / 4) * x ^ (a / 4 - 1) := by
    rw [← Real.rpow_add h0]
    exact Real.rpow_le_rpow_of_exponent_ge h0 h1.le (by linarith)
  have h5 : 0 < x ^ (a / 4 - 1) := Real.rpow_pos_of_pos h0 _
  have h6 : 0 < (1 - x) ^ (b - 1) := Real.rpow_pos_of_pos h2 _
  have h7 : 0 < x ^ (a / 4) := Real.rpow_pos_of_pos h0 _
  have h8 : 0 < x ^ (s - 1) := Real.rpow_pos_of_pos h0 _
  rw [w, w, Real.norm_eq_abs, abs_mul, abs_mul, abs_of_pos h8, abs_of_pos h6, ← mul_assoc, ← mul_assoc]
  refine mul_le_mul_of_nonneg_right ?_ h6.le
  rw [abs_mul, abs_of_pos h7, one_div_div] at h3
  calc |Real.log x| * x ^ (s - 1) ≤ |Real.log x| * (x ^ (a / 4) * x ^ (a / 4 - 1)) := mul_le_mul_of_nonneg_left h4 (abs_nonneg _)
    _ = |Real.log x| * x ^ (a / 4) * x ^ (a / 4 - 1) := by ring
    _ ≤ 4 / a * x ^ (a / 4 - 1) := mul_le_mul_of_nonneg_right h3.le h5.le

theorem hasDerivAt_w (ha : 0 < a) (hb : 0 < b) : IntegrableOn (fun x => Real.log x * w a b x) (Ioo 0 1) ∧
    HasDerivAt (fun s => ∫ x in Ioo (0:ℝ) 1, w s b x) (∫ x in Ioo (0:ℝ) 1, Real.log x * w a b x) a := by
  have hm : ∀ s, AEStronglyMeasurable (w s b) (volume.restrict (Ioo (0:ℝ) 1)) := fun s =>
    Measurable.aestronglyMeasurable (by unfold w; fun_prop)
  refine hasDerivAt_integral_of_dominated_loc_of_deriv_le (μ := volume.restrict (Ioo (0:ℝ) 1)) (F := fun s x => w s b x)
    (F' := fun s x => Real.log x * w s b x) (bound := fun x => 4 / a * w (a / 4) b x) (s := Ioi (a / 2)) (x₀ := a)
    (Ioi_mem_nhds (by linarith)) (Eventually.of_forall hm) (w_int ha hb) ?_ ?_ ((w_int (by positivity) hb).const_mul _) ?_
  · exact Measurable.aestronglyMeasurable (by unfold w; fun_prop)
  · exact (ae_restrict_iff' measurableSet_Ioo).2 (Eventually.of_forall fun x hx s hs => log_bound ha hs hx.1 hx.2)
  · refine (ae_restrict_iff' measurableSet_Ioo).2 (Eventually.of_forall fun x hx s hs => ?_)
    have h := (((hasDerivAt_id s).sub_const 1).const_rpow hx.1).mul_const ((1 - x) ^ (b - 1))
    refine h.congr_deriv ?_
    simp only [w, id]; ring

theorem betaFn_deriv (ha : 0 < a) (hb : 0 < b) : HasDerivAt (fun s => betaFn s b) (betaFn a b * (psi a - psi (a + b))) a := by
  have hab : 0 < a + b := by positivity
  have h1 := Real.Gamma_pos_of_pos ha
  have h2 := Real.Gamma_pos_of_pos hab
  have d1 : HasDerivAt Real.Gamma (Real.Gamma a * psi a) a := by
    have := (differentiableAt_Gamma ha).hasDerivAt
    rwa [show deriv Real.Gamma a = Real.Gamma a * psi a by rw [psi, mul_div_cancel₀ _ h1.ne']] at this
  have d2 : HasDerivAt (fun s => Real.Gamma (s + b)) (Real.Gamma (a + b) * psi (a + b)) a := by
    have := (differentiableAt_Gamma hab).hasDerivAt.comp_add_const a b
    rwa [show deriv Real.Gamma (a + b) = Real.Gamma (a + b) * psi (a + b) by rw [psi, mul_div_cancel₀ _ h2.ne']] at this
  refine ((d1.mul_const (Real.Gamma b)).div d2 h2.ne').congr_deriv ?_
  rw [betaFn]; field_simp

theorem betaFn_symm (a b : ℝ) : betaFn a b = betaFn b a := by rw [betaFn, betaFn, mul_comm, add_comm]

theorem E_log (ha : 0 < a) (hb : 0 < b) : E a b Real.log (psi a - psi (a + b)) := by
  obtain ⟨h1, h2⟩ := hasDerivAt_w ha hb
  have h3 : (fun s => ∫ x in Ioo (0:ℝ) 1, w s b x) =ᶠ[𝓝 a] fun s => betaFn s b := by
    filter_upwards [Ioi_mem_nhds ha] with s hs
    exact w_val hs hb
  have h4 := (h2.congr_of_eventuallyEq h3.symm).unique (betaFn_deriv ha hb)
  exact E_of ha hb (by fun_prop) h1 (by rw [h4, mul_comm])

/-- the reflected distribution has the reflected quantiles -/
theorem Q_symm (ha : 0 < a) (hb : 0 < b) {p : ℝ} (h0 : 0 < p) (h1 : p < 1) : Q b a (1 - p) = 1 - Q a b p := by
  obtain ⟨hx, hy⟩ := Q_mem (a := a) (b := b) p
  obtain ⟨hx', hy'⟩ := Q_mem (a := b) (b := a) (1 - p)
  refine (P_strictMonoOn hb ha).injOn ⟨hx'.le, hy'.le⟩ ⟨by linarith, by linarith⟩ ?_
  rw [P_Q hb ha (by linarith) (by linarith), P_compl ha hb hx.le hy.le, P_Q ha hb h0 h1]

theorem E_log1m (ha : 0 < a) (hb : 0 < b) : E a b (fun x => Real.log (1 - x)) (psi b - psi (a + b)) := by
  have := (E_log hb ha).reflect
  rw [add_comm] at this
  exact this.congr fun p h0 h1 => by rw [Q_symm ha hb h0 h1]

/-- Jensen: `log B` lies above its tangents -/
theorem logBeta_tangent (ha : 0 < a) (hb : 0 < b) {a' b' : ℝ} (ha' : 0 < a') (hb' : 0 < b') :
    Real.log (betaFn a b) + (a' - a) * (psi a - psi (a + b)) + (b' - b) * (psi b - psi (a + b)) ≤ Real.log (betaFn a' b') := by
  have hB := betaFn_pos ha hb
  have hB' := betaFn_pos ha' hb'
  set m := (a' - a) * (psi a - psi (a + b)) + (b' - b) * (psi b - psi (a + b)) with hm
  have h1 := E_rpow ha hb (s := a' - a) (t := b' - b) (by linarith) (by linarith)
  rw [add_sub_cancel, add_sub_cancel] at h1
  have h2 := ((((E_log ha hb).mul (a' - a)).add ((E_log1m ha hb).mul (b' - b))).add (Int01.const (1 - m))).mul (Real.exp m)
  rw [show Real.exp m * ((a' - a) * (psi a - psi (a + b)) + (b' - b) * (psi b - psi (a + b)) + (1 - m)) = Real.exp m by
    rw [← hm]; ring] at h2
  have h3 : Real.exp m ≤ betaFn a' b' / betaFn a b := by
    rw [← h2.2, ← h1.2]
    refine setIntegral_mono_on h2.1 h1.1 measurableSet_Ioo fun p _ => ?_
    obtain ⟨hx, hy⟩ := Q_mem (a := a) (b := b) p
    set x := Q a b p
    have e : x ^ (a' - a) * (1 - x) ^ (b' - b) = Real.exp m * Real.exp ((a' - a) * Real.log x + (b' - b) * Real.log (1 - x) - m) := by
      rw [Real.rpow_def_of_pos hx, Real.rpow_def_of_pos (by linarith : 0 < 1 - x), ← Real.exp_add, ← Real.exp_add]; ring_nf
    show Real.exp m * ((a' - a) * Real.log x + (b' - b) * Real.log (1 - x) + (1 - m)) ≤ x ^ (a' - a) * (1 - x) ^ (b' - b)
    rw [e]
    refine mul_le_mul_of_nonneg_left ?_ (Real.exp_pos m).le
    have := Real.add_one_le_exp ((a' - a) * Real.log x + (b' - b) * Real.log (1 - x) - m)
    linarith
  have h4 := (Real.le_log_iff_exp_le (div_pos hB' hB)).2 h3
  rw [Real.log_div hB'.ne' hB.ne'] at h4
  linarith

end Mpsci.betaD
