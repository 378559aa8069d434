import Verif.Lemmas.BetaDist
import Mathlib.Analysis.SpecialFunctions.Pow.Deriv

/-! Integrals of `(log x)^i (log (1 - x))^j x^(a-1) (1 - x)^(b-1)` over a part of `(0, 1)`, and their derivatives in `a`, `b`. -/

namespace Mpsci.betaD

open Classical MeasureTheory Set Filter Topology

variable {a b : ℝ} {i j : ℕ} {S : Set ℝ}

noncomputable def wl (i j : ℕ) (a b x : ℝ) : ℝ := Real.log x ^ i * Real.log (1 - x) ^ j * w a b x
noncomputable def J (S : Set ℝ) (i j : ℕ) (a b : ℝ) : ℝ := ∫ x in S, wl i j a b x

theorem wl_measurable : Measurable (wl i j a b) := by
  unfold wl w
  have h1 := Real.measurable_log
  fun_prop

/-- powers of the logarithm grow slower than any power -/
theorem log_pow_le (i : ℕ) {e : ℝ} (he : 0 < e) : ∃ C, 0 < C ∧ ∀ x : ℝ, 0 < x → x < 1 → |Real.log x| ^ i ≤ C * x ^ (-e) := by
  have hd : 0 < e / (i + 1) := by positivity
  refine ⟨(1 / (e / (i + 1))) ^ i, by positivity, fun x h0 h1 => ?_⟩
  have hlog : |Real.log x| ≤ x ^ (-(e / (i + 1))) / (e / (i + 1)) := by
    rw [abs_of_neg (Real.log_neg h0 h1), ← Real.log_inv]
    have := Real.log_le_rpow_div (inv_pos.2 h0).le hd
    rwa [Real.inv_rpow h0.le, ← Real.rpow_neg h0.le] at this
  calc |Real.log x| ^ i ≤ (x ^ (-(e / (i + 1))) / (e / (i + 1))) ^ i := pow_le_pow_left₀ (abs_nonneg _) hlog i
    _ = (1 / (e / (i + 1))) ^ i * x ^ (-(e / (i + 1)) * i) := by
        rw [Real.rpow_mul h0.le, Real.rpow_natCast]; ring
    _ ≤ (1 / (e / (i + 1))) ^ i * x ^ (-e) := by
        refine mul_le_mul_of_nonneg_left ?_ (by positivity)
        refine Real.rpow_le_rpow_of_exponent_ge h0 h1.le ?_
        have : e / (i + 1) * i ≤ e := by
          rw [div_mul_eq_mul_div, div_le_iff₀ (by positivity)]
          nlinarith
        linarith

theorem wl_int (i j : ℕ) (ha : 0 < a) (hb : 0 < b) : IntegrableOn (wl i j a b) (Ioo 0 1) := by
  obtain ⟨C, hC, h1⟩ := log_pow_le i (half_pos ha)
  obtain ⟨D, hD, h2⟩ := log_pow_le j (half_pos hb)
  have hi : IntegrableOn (fun x => C * D * w (a + -(a / 2)) (b + -(b / 2)) x) (Ioo 0 1) :=
    (w_int (by linarith) (by linarith)).const_mul _
  refine Integrable.mono' hi wl_measurable.aestronglyMeasurable ?_
  rw [ae_restrict_iff' measurableSet_Ioo]
  refine Eventually.of_forall fun x hx => ?_
  have hw := w_pos (a := a) (b := b) hx.1 hx.2
  rw [wl, Real.norm_eq_abs, abs_mul, abs_mul, abs_pow, abs_pow, abs_of_pos hw, ← w_mul hx.1 hx.2]
  have e1 := h1 x hx.1 hx.2
  have e2 := h2 (1 - x) (by linarith [hx.2]) (by linarith [hx.1])
  calc |Real.log x| ^ i * |Real.log (1 - x)| ^ j * w a b x
      ≤ (C * x ^ (-(a / 2))) * (D * (1 - x) ^ (-(b / 2))) * w a b x :=
        mul_le_mul_of_nonneg_right (mul_le_mul e1 e2 (by positivity) ((by positivity : (0:ℝ) ≤ |Real.log x| ^ i).trans e1)) hw.le
    _ = _ := by ring

theorem wl_intS (hS : S ⊆ Ioo 0 1) (i j : ℕ) (ha : 0 < a) (hb : 0 < b) : IntegrableOn (wl i j a b) S := (wl_int i j ha hb).mono_set hS

theorem hasDerivAt_wl_left {x : ℝ} (hx : x ∈ Ioo (0:ℝ) 1) : HasDerivAt (fun t => wl i j t b x) (wl (i + 1) j a b x) a := by
  have h : HasDerivAt (fun t : ℝ => x ^ (t - 1)) (Real.log x * x ^ (a - 1)) a := by
    have := ((hasDerivAt_id a).sub_const 1).const_rpow hx.1
    simpa [mul_comm, mul_left_comm] using this
  have := (h.mul_const ((1 - x) ^ (b - 1))).const_mul (Real.log x ^ i * Real.log (1 - x) ^ j)
  refine this.congr_deriv ?_
  simp only [wl, w, pow_succ]; ring
theorem hasDerivAt_wl_right {x : ℝ} (hx : x ∈ Ioo (0:ℝ) 1) : HasDerivAt (fun t => wl i j a t x) (wl i (j + 1) a b x) b := by
  have h : HasDerivAt (fun t : ℝ => (1 - x) ^ (t - 1)) (Real.log (1 - x) * (1 - x) ^ (b - 1)) b := by
    have := ((hasDerivAt_id b).sub_const 1).const_rpow (sub_pos.2 hx.2)
    simpa [mul_comm, mul_left_comm] using this
  have := (h.const_mul (x ^ (a - 1))).const_mul (Real.log x ^ i * Real.log (1 - x) ^ j)
  refine this.congr_deriv ?_
  simp only [wl, w, pow_succ]; ring

theorem wl_abs_le {x a' b' : ℝ} (hx : x ∈ Ioo (0:ℝ) 1) (h1 : a' ≤ a) (h2 : b' ≤ b) : ‖wl i j a b x‖ ≤ ‖wl i j a' b' x‖ := by
  rw [wl, wl, norm_mul _ (w a b x), norm_mul _ (w a' b' x)]
  refine mul_le_mul_of_nonneg_left ?_ (norm_nonneg (Real.log x ^ i * Real.log (1 - x) ^ j))
  rw [Real.norm_eq_abs, Real.norm_eq_abs, abs_of_pos (w_pos hx.1 hx.2), abs_of_pos (w_pos hx.1 hx.2)]
  have hx' : 0 < 1 - x := sub_pos.2 hx.2
  exact mul_le_mul (Real.rpow_le_rpow_of_exponent_ge hx.1 hx.2.le (by linarith))
    (Real.rpow_le_rpow_of_exponent_ge hx' (by linarith [hx.1]) (by linarith)) (by positivity) (Real.rpow_nonneg hx.1.le _)

theorem hasDerivAt_J_left (hm : MeasurableSet S) (hS : S ⊆ Ioo 0 1) (ha : 0 < a) (hb : 0 < b) :
    HasDerivAt (fun t => J S i j t b) (J S (i + 1) j a b) a := by
  refine (hasDerivAt_integral_of_dominated_loc_of_deriv_le (F := fun t x => wl i j t b x) (F' := fun t x => wl (i + 1) j t b x)
    (bound := fun x => ‖wl (i + 1) j (a / 2) b x‖) (s := Ioi (a / 2)) (Ioi_mem_nhds (by linarith))
    (Eventually.of_forall fun t => wl_measurable.aestronglyMeasurable) (wl_intS hS i j ha hb) wl_measurable.aestronglyMeasurable ?_
    (wl_intS hS (i + 1) j (half_pos ha) hb).norm ?_).2
  · rw [ae_restrict_iff' hm]
    exact Eventually.of_forall fun x hx t ht => wl_abs_le (hS hx) (mem_Ioi.1 ht).le le_rfl
  · rw [ae_restrict_iff' hm]
    exact Eventually.of_forall fun x hx t _ => hasDerivAt_wl_left (hS hx)
theorem hasDerivAt_J_right (hm : MeasurableSet S) (hS : S ⊆ Ioo 0 1) (ha : 0 < a) (hb : 0 < b) :
    HasDerivAt (fun t => J S i j a t) (J S i (j + 1) a b) b := by
  refine (hasDerivAt_integral_of_dominated_loc_of_deriv_le (F := fun t x => wl i j a t x) (F' := fun t x => wl i (j + 1) a t x)
    (bound := fun x => ‖wl i (j + 1) a (b / 2) x‖) (s := Ioi (b / 2)) (Ioi_mem_nhds (by linarith))
    (Eventually.of_forall fun t => wl_measurable.aestronglyMeasurable) (wl_intS hS i j ha hb) wl_measurable.aestronglyMeasurable ?_
    (wl_intS hS i (j + 1) ha (half_pos hb)).norm ?_).2
  · rw [ae_restrict_iff' hm]
    exact Eventually.of_forall fun x hx t ht => wl_abs_le (hS hx) le_rfl (mem_Ioi.1 ht).le
  · rw [ae_restrict_iff' hm]
    exact Eventually.of_forall fun x hx t _ => hasDerivAt_wl_right (hS hx)

theorem J_zero : J S 0 0 a b = ∫ x in S, w a b x := by simp [J, wl]

/-! ### The logarithm of the probability of an interval -/

/-- a nondegenerate interval within the support -/
def Cell (p : ℝ × ℝ) : Prop := 0 ≤ p.1 ∧ p.1 < p.2 ∧ p.2 ≤ 1

theorem cell_sub {p : ℝ × ℝ} (h : Cell p) : Ioo p.1 p.2 ⊆ Ioo 0 1 := Ioo_subset_Ioo h.1 h.2.2
theorem cell_full : Cell (0, 1) := ⟨le_rfl, one_pos, le_rfl⟩

/-- `∂^i/∂a^i ∂^j/∂b^j` of `∫ x^(a-1) (1-x)^(b-1)` over the cell -/
noncomputable def K (p : ℝ × ℝ) (i j : ℕ) (a b : ℝ) : ℝ := J (Ioo p.1 p.2) i j a b

theorem K_pos {p : ℝ × ℝ} (h : Cell p) (ha : 0 < a) (hb : 0 < b) : 0 < K p 0 0 a b := by
  rw [K, J_zero, setIntegral_pos_iff_support_of_nonneg_ae]
  · have : Ioo p.1 p.2 ⊆ Function.support (w a b) ∩ Ioo p.1 p.2 := fun x hx =>
      ⟨(w_pos (cell_sub h hx).1 (cell_sub h hx).2).ne', hx⟩
    refine lt_of_lt_of_le ?_ (measure_mono this)
    rw [Real.volume_Ioo]; simpa using h.2.1
  · rw [EventuallyLE, ae_restrict_iff' measurableSet_Ioo]
    exact Eventually.of_forall fun x hx => (w_pos (cell_sub h hx).1 (cell_sub h hx).2).le
  · exact (w_int ha hb).mono_set (cell_sub h)

theorem K_full (ha : 0 < a) (hb : 0 < b) : K (0, 1) 0 0 a b = betaFn a b := by rw [K, J_zero]; exact w_val ha hb

theorem K_betaInt {p : ℝ × ℝ} (h : Cell p) : K p 0 0 a b = betaInt a b p.1 p.2 := by
  rw [K, J_zero, betaInt, intervalIntegral.integral_of_le h.2.1.le, integral_Ioc_eq_integral_Ioo]; rfl

/-- the logarithm of `K`, its gradient and its second derivatives -/
noncomputable def c (p : ℝ × ℝ) (a b : ℝ) : ℝ := Real.log (K p 0 0 a b)
noncomputable def ca (p : ℝ × ℝ) (a b : ℝ) : ℝ := K p 1 0 a b / K p 0 0 a b
noncomputable def cb (p : ℝ × ℝ) (a b : ℝ) : ℝ := K p 0 1 a b / K p 0 0 a b
noncomputable def caa (p : ℝ × ℝ) (a b : ℝ) : ℝ := (K p 2 0 a b * K p 0 0 a b - K p 1 0 a b * K p 1 0 a b) / K p 0 0 a b ^ 2
noncomputable def cab (p : ℝ × ℝ) (a b : ℝ) : ℝ := (K p 1 1 a b * K p 0 0 a b - K p 1 0 a b * K p 0 1 a b) / K p 0 0 a b ^ 2
noncomputable def cbb (p : ℝ × ℝ) (a b : ℝ) : ℝ := (K p 0 2 a b * K p 0 0 a b - K p 0 1 a b * K p 0 1 a b) / K p 0 0 a b ^ 2

theorem hasDerivAt_K_left {p : ℝ × ℝ} (h : Cell p) (ha : 0 < a) (hb : 0 < b) :
    HasDerivAt (fun t => K p i j t b) (K p (i + 1) j a b) a := hasDerivAt_J_left measurableSet_Ioo (cell_sub h) ha hb
theorem hasDerivAt_K_right {p : ℝ × ℝ} (h : Cell p) (ha : 0 < a) (hb : 0 < b) :
    HasDerivAt (fun t => K p i j a t) (K p i (j + 1) a b) b := hasDerivAt_J_right measurableSet_Ioo (cell_sub h) ha hb

theorem hasDerivAt_c_left {p : ℝ × ℝ} (h : Cell p) (ha : 0 < a) (hb : 0 < b) : HasDerivAt (fun t => c p t b) (ca p a b) a :=
  (hasDerivAt_K_left h ha hb).log (K_pos h ha hb).ne'
theorem hasDerivAt_c_right {p : ℝ × ℝ} (h : Cell p) (ha : 0 < a) (hb : 0 < b) : HasDerivAt (fun t => c p a t) (cb p a b) b :=
  (hasDerivAt_K_right h ha hb).log (K_pos h ha hb).ne'
theorem hasDerivAt_ca_left {p : ℝ × ℝ} (h : Cell p) (ha : 0 < a) (hb : 0 < b) : HasDerivAt (fun t => ca p t b) (caa p a b) a :=
  (hasDerivAt_K_left h ha hb).div (hasDerivAt_K_left h ha hb) (K_pos h ha hb).ne'
theorem hasDerivAt_ca_right {p : ℝ × ℝ} (h : Cell p) (ha : 0 < a) (hb : 0 < b) : HasDerivAt (fun t => ca p a t) (cab p a b) b :=
  (hasDerivAt_K_right h ha hb).div (hasDerivAt_K_right h ha hb) (K_pos h ha hb).ne'
theorem hasDerivAt_cb_left {p : ℝ × ℝ} (h : Cell p) (ha : 0 < a) (hb : 0 < b) : HasDerivAt (fun t => cb p t b) (cab p a b) a :=
  ((hasDerivAt_K_left h ha hb).div (hasDerivAt_K_left h ha hb) (K_pos h ha hb).ne').congr_deriv (by
    rw [cab]; simp only [Nat.reduceAdd]; ring)
theorem hasDerivAt_cb_right {p : ℝ × ℝ} (h : Cell p) (ha : 0 < a) (hb : 0 < b) : HasDerivAt (fun t => cb p a t) (cbb p a b) b :=
  (hasDerivAt_K_right h ha hb).div (hasDerivAt_K_right h ha hb) (K_pos h ha hb).ne'

end Mpsci.betaD
