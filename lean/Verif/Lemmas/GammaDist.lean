import Verif.Base.GammaInc
import Verif.Lemmas.GammaInt
import Verif.Lemmas.Shape
import Mathlib.MeasureTheory.Integral.IntervalIntegral.FundThmCalculus

/-! The standard gamma distribution: density `g k`, distribution function `P k`, quantiles `Q k`, and the
distributions obtained from it by monotone maps. -/

namespace Mpsci.gammaD

open Classical MeasureTheory Set Filter Topology

variable {k : ℝ}

noncomputable def g (k x : ℝ) : ℝ := x ^ (k - 1) * Real.exp (-x) / Real.Gamma k
noncomputable def P (k x : ℝ) : ℝ := gammaInt k 0 x / Real.Gamma k

theorem Gpos (hk : 0 < k) : 0 < Real.Gamma k := Real.Gamma_pos_of_pos hk

theorem g_pos (hk : 0 < k) {x : ℝ} (hx : 0 < x) : 0 < g k x := by
  have := Gpos hk; unfold g; positivity
theorem g_nonneg (hk : 0 < k) {x : ℝ} (hx : 0 ≤ x) : 0 ≤ g k x := by
  have := Gpos hk; unfold g; positivity

theorem intOn (hk : 0 < k) : IntegrableOn (fun t => t ^ (k - 1) * Real.exp (-t)) (Ioi 0) := by
  simpa using LG_integrable 0 hk
theorem int_eq (hk : 0 < k) : ∫ t in Ioi (0:ℝ), t ^ (k - 1) * Real.exp (-t) = Real.Gamma k := by
  simpa [LG] using LG_zero hk

theorem intervalInt (hk : 0 < k) {x y : ℝ} (hx : 0 ≤ x) (hy : 0 ≤ y) :
    IntervalIntegrable (fun t => t ^ (k - 1) * Real.exp (-t)) volume x y := by
  rw [intervalIntegrable_iff]
  refine (intOn hk).mono_set fun t ht => ?_
  exact (le_min hx hy).trans_lt ht.1

theorem hasDerivAt_P (hk : 0 < k) {x : ℝ} (hx : 0 < x) : HasDerivAt (P k) (g k x) x := by
  have hc : ContinuousAt (fun t => t ^ (k - 1) * Real.exp (-t)) x := by
    refine ContinuousAt.mul (Real.continuousAt_rpow_const _ _ (Or.inl hx.ne')) (by fun_prop)
  have hm : StronglyMeasurableAtFilter (fun t : ℝ => t ^ (k - 1) * Real.exp (-t)) (𝓝 x) volume :=
    Measurable.stronglyMeasurable (by fun_prop) |>.stronglyMeasurableAtFilter
  have h := intervalIntegral.integral_hasDerivAt_right (intervalInt hk le_rfl hx.le) hm hc
  exact h.div_const _

theorem P_zero : P k 0 = 0 := by simp [P, gammaInt]

theorem gammaInt_add (hk : 0 < k) {x y : ℝ} (hx : 0 ≤ x) (hy : 0 ≤ y) : gammaInt k 0 x + gammaInt k x y = gammaInt k 0 y :=
  intervalIntegral.integral_add_adjacent_intervals (intervalInt hk le_rfl hx) (intervalInt hk hx hy)

theorem gammaInt_sub (hk : 0 < k) {x y : ℝ} (hx : 0 ≤ x) (hy : 0 ≤ y) :
    gammaInt k x y / Real.Gamma k = P k y - P k x := by
  rw [P, P, ← gammaInt_add hk hx hy]; ring

theorem gammaTail_eq (hk : 0 < k) {x : ℝ} (hx : 0 ≤ x) : gammaTail k x / Real.Gamma k = 1 - P k x := by
  have h1 : gammaInt k 0 x + gammaTail k x = Real.Gamma k := by
    rw [← int_eq hk, gammaInt, gammaTail, intervalIntegral.integral_of_le hx, ← setIntegral_union
      (Ioc_disjoint_Ioi le_rfl) measurableSet_Ioi ((intOn hk).mono_set fun t ht => ht.1)
      ((intOn hk).mono_set fun t ht => hx.trans_lt ht), Ioc_union_Ioi_eq_Ioi hx]
  have := (Gpos hk).ne'
  rw [P, eq_sub_iff_add_eq, ← add_div, add_comm, h1, div_self this]

theorem P_atTop (hk : 0 < k) : Tendsto (P k) atTop (𝓝 1) := by
  have h := intervalIntegral_tendsto_integral_Ioi 0 (intOn hk) tendsto_id
  rw [int_eq hk] at h
  have h2 := h.div_const (Real.Gamma k)
  rwa [div_self (Gpos hk).ne'] at h2

theorem P_cont0 (hk : 0 < k) : ContinuousWithinAt (P k) (Ici 0) 0 := by
  have h : ContinuousOn (fun x => ∫ t in (0:ℝ)..x, t ^ (k - 1) * Real.exp (-t)) (uIcc 0 1) :=
    intervalIntegral.continuousOn_primitive_interval' (intervalInt hk le_rfl zero_le_one) (by simp)
  have h2 := h.div_const (Real.Gamma k)
  rw [uIcc_of_le zero_le_one] at h2
  have h3 := h2 0 (by simp)
  exact h3.mono_of_mem_nhdsWithin (Icc_mem_nhdsGE zero_lt_one)

/-- distribution function and density on the line -/
noncomputable def F (k x : ℝ) : ℝ := if x ≤ 0 then 0 else P k x
noncomputable def f (k x : ℝ) : ℝ := if x < 0 then 0 else g k x

theorem F_pos {x : ℝ} (hx : 0 < x) : F k x = P k x := if_neg (not_le.2 hx)
theorem F_nonneg_arg {x : ℝ} (hx : 0 ≤ x) : F k x = P k x := by
  rcases hx.eq_or_lt with rfl | hx
  · rw [P_zero]; simp [F]
  · exact F_pos hx
theorem F_nonpos {x : ℝ} (hx : x ≤ 0) : F k x = 0 := if_pos hx
theorem f_neg {x : ℝ} (hx : x < 0) : f k x = 0 := if_pos hx
theorem f_of_nonneg {x : ℝ} (hx : 0 ≤ x) : f k x = g k x := if_neg (not_lt.2 hx)
theorem f_nonneg (hk : 0 < k) (x : ℝ) : 0 ≤ f k x := by
  rcases lt_or_ge x 0 with h | h
  · exact (f_neg h).ge
  · rw [f_of_nonneg h]; exact g_nonneg hk h

/-- Distributions on `(a, ∞)` got from the gamma distribution by an increasing map. -/
theorem isDist_map (hk : 0 < k) {G d u u' : ℝ → ℝ} {a : ℝ} (hl : ∀ x, x ≤ a → G x = 0)
    (hG : ∀ x, a < x → G x = P k (u x)) (hu : ∀ x, a < x → 0 < u x) (hua : u a = 0)
    (huc : ContinuousWithinAt u (Ici a) a) (hu' : ∀ x, a < x → HasDerivAt u (u' x) x)
    (hp : ∀ x, a < x → 0 ≤ u' x) (hut : Tendsto u atTop atTop) (hdl : ∀ x, x < a → d x = 0) (hda : 0 ≤ d a)
    (hd : ∀ x, a < x → d x = g k (u x) * u' x) : IsDist G d := by
  refine isDist_Ioi (G := fun x => P k (u x)) hl hG (by simp only [hua, P_zero]) ?_ hdl hda (fun x hx => ?_)
    (fun x hx => ?_) ((P_atTop hk).comp hut)
  · have h1 := P_cont0 hk
    rw [← hua] at h1
    refine h1.comp huc fun x hx => ?_
    rcases (show a ≤ x from hx).eq_or_lt with h | h
    · rw [← h, hua]; exact self_mem_Ici
    · rw [mem_Ici, hua]; exact (hu x h).le
  · rw [hd x hx]
    exact (hasDerivAt_P hk (hu x hx)).comp x (hu' x hx)
  · rw [hd x hx]; exact mul_nonneg (g_nonneg hk (hu x hx).le) (hp x hx)

theorem isDist (hk : 0 < k) : IsDist (F k) (f k) :=
  isDist_map hk (u := id) (u' := fun _ => 1) (a := 0) (fun x hx => F_nonpos hx) (fun x hx => F_pos hx) (fun x hx => hx) rfl
    continuous_id.continuousWithinAt (fun x _ => hasDerivAt_id x) (fun x _ => zero_le_one) tendsto_id
    (fun x hx => f_neg hx) (f_nonneg hk 0) (fun x hx => by rw [f_of_nonneg hx.le, mul_one]; rfl)

theorem P_strictMonoOn (hk : 0 < k) : StrictMonoOn (P k) (Ici 0) := by
  refine strictMonoOn_of_deriv_pos (convex_Ici 0) ?_ fun x hx => ?_
  · intro x hx
    rcases (show 0 ≤ x from hx).eq_or_lt with h | h
    · rw [← h]; exact P_cont0 hk
    · exact (hasDerivAt_P hk h).continuousAt.continuousWithinAt
  · rw [interior_Ici] at hx
    rw [(hasDerivAt_P hk hx).deriv]; exact g_pos hk hx

theorem P_pos (hk : 0 < k) {x : ℝ} (hx : 0 < x) : 0 < P k x := by
  rw [← P_zero (k := k)]; exact P_strictMonoOn hk self_mem_Ici hx.le hx
theorem P_lt_one (hk : 0 < k) {x : ℝ} (hx : 0 ≤ x) : P k x < 1 := by
  have h1 : P k x < P k (x + 1) := P_strictMonoOn hk hx (by simp only [mem_Ici]; linarith) (by linarith)
  have h2 := (isDist hk).le_one (x + 1)
  rw [F_pos (by linarith)] at h2
  linarith
theorem P_contOn (hk : 0 < k) : ContinuousOn (P k) (Ici 0) := fun x hx => by
  rcases (show 0 ≤ x from hx).eq_or_lt with h | h
  · rw [← h]; exact P_cont0 hk
  · exact (hasDerivAt_P hk h).continuousAt.continuousWithinAt

theorem exists_Q (hk : 0 < k) {p : ℝ} (h0 : 0 < p) (h1 : p < 1) : ∃ x, 0 < x ∧ P k x = p := by
  obtain ⟨y, hy⟩ := ((P_atTop hk).eventually (lt_mem_nhds h1)).and (eventually_ge_atTop 0) |>.exists
  obtain ⟨x, hx, e⟩ := intermediate_value_Icc hy.2 ((P_contOn hk).mono Icc_subset_Ici_self)
    (show p ∈ Icc (P k 0) (P k y) from ⟨by rw [P_zero]; exact h0.le, hy.1.le⟩)
  refine ⟨x, hx.1.lt_of_ne fun h => ?_, e⟩
  rw [← h, P_zero] at e; linarith

/-- quantiles -/
noncomputable def Q (k p : ℝ) : ℝ := if h : ∃ x, 0 < x ∧ P k x = p then h.choose else 1

theorem Q_pos (p : ℝ) : 0 < Q k p := by
  unfold Q; split_ifs with h
  · exact h.choose_spec.1
  · exact one_pos
theorem P_Q (hk : 0 < k) {p : ℝ} (h0 : 0 < p) (h1 : p < 1) : P k (Q k p) = p := by
  have h := exists_Q hk h0 h1
  unfold Q; rw [dif_pos h]; exact h.choose_spec.2
theorem F_Q (hk : 0 < k) (p : ℝ) (h0 : 0 < p) (h1 : p < 1) : F k (Q k p) = p := by
  rw [F_pos (Q_pos p), P_Q hk h0 h1]
theorem Q_P (hk : 0 < k) {x : ℝ} (hx : 0 < x) : Q k (P k x) = x :=
  (P_strictMonoOn hk).injOn (Q_pos _).le hx.le (P_Q hk (P_pos hk hx) (P_lt_one hk hx.le))

/-! ### Expectations -/

/-- `h` has expectation `v` under the gamma distribution. -/
def E (k : ℝ) (h : ℝ → ℝ) (v : ℝ) : Prop := Int01 (fun p => h (Q k p)) v

theorem E_of (hk : 0 < k) {h : ℝ → ℝ} {v : ℝ} (hm : Measurable h)
    (hi : IntegrableOn (fun x => h x * (x ^ (k - 1) * Real.exp (-x))) (Ioi 0))
    (hv : ∫ x in Ioi (0:ℝ), h x * (x ^ (k - 1) * Real.exp (-x)) = v * Real.Gamma k) : E k h v := by
  obtain ⟨a, b⟩ := (isDist hk).expect (F_Q hk) (h := h) hm.aestronglyMeasurable
  have hz : ∀ x : ℝ, x < 0 → h x * f k x = 0 := fun x hx => by simp [f_neg hx]
  have e : ∀ x ∈ Ioi (0:ℝ), h x * f k x = h x * (x ^ (k - 1) * Real.exp (-x)) / Real.Gamma k :=
    fun x hx => by rw [f_of_nonneg (le_of_lt hx), g]; ring
  refine ⟨a.2 (integrable_of_Ioi hz (IntegrableOn.congr_fun (hi.div_const _) (fun x hx => (e x hx).symm) measurableSet_Ioi)), ?_⟩
  rw [b, integral_Ioi_of_zero hz, setIntegral_congr_fun measurableSet_Ioi e, integral_div, hv,
    mul_div_cancel_right₀ _ (Gpos hk).ne']

theorem E_iff (hk : 0 < k) {h : ℝ → ℝ} (hm : Measurable h) : IntegrableOn (fun p => h (Q k p)) (Ioo 0 1) ↔
    IntegrableOn (fun x => h x * (x ^ (k - 1) * Real.exp (-x))) (Ioi 0) := by
  obtain ⟨a, _⟩ := (isDist hk).expect (F_Q hk) (h := h) hm.aestronglyMeasurable
  have hz : ∀ x : ℝ, x < 0 → h x * f k x = 0 := fun x hx => by simp [f_neg hx]
  have e : ∀ x ∈ Ioi (0:ℝ), h x * f k x = h x * (x ^ (k - 1) * Real.exp (-x)) / Real.Gamma k :=
    fun x hx => by rw [f_of_nonneg (le_of_lt hx), g]; ring
  rw [a]
  constructor
  · intro h1
    have h2 : IntegrableOn (fun x => h x * f k x) (Ioi 0) := h1.integrableOn
    refine IntegrableOn.congr_fun (h2.mul_const (Real.Gamma k)) (fun x hx => ?_) measurableSet_Ioi
    simp only [e x hx]; rw [div_mul_cancel₀ _ (Gpos hk).ne']
  · intro hi
    exact integrable_of_Ioi hz (IntegrableOn.congr_fun (hi.div_const _) (fun x hx => (e x hx).symm) measurableSet_Ioi)

/-- powers -/
theorem E_rpow (hk : 0 < k) {s : ℝ} (hs : 0 < k + s) : E k (fun x => x ^ s) (Real.Gamma (k + s) / Real.Gamma k) := by
  have e : ∀ x ∈ Ioi (0:ℝ), x ^ s * (x ^ (k - 1) * Real.exp (-x)) = x ^ (k + s - 1) * Real.exp (-x) := fun x hx => by
    rw [← mul_assoc, ← Real.rpow_add hx]; ring_nf
  refine E_of hk (by fun_prop) ((intOn hs).congr_fun (fun x hx => (e x hx).symm) measurableSet_Ioi) ?_
  rw [setIntegral_congr_fun measurableSet_Ioi e, int_eq hs, div_mul_cancel₀ _ (Gpos hk).ne']

/-- powers of the logarithm -/
theorem E_log (hk : 0 < k) (n : ℕ) : E k (fun x => Real.log x ^ n) (LG n k / Real.Gamma k) := by
  have e : ∀ x ∈ Ioi (0:ℝ), Real.log x ^ n * (x ^ (k - 1) * Real.exp (-x)) =
    x ^ (k - 1) * (Real.log x ^ n * Real.exp (-x)) := fun x hx => by ring
  refine E_of hk (by fun_prop) ((LG_integrable n hk).congr_fun (fun x hx => (e x hx).symm) measurableSet_Ioi) ?_
  rw [setIntegral_congr_fun measurableSet_Ioi e, div_mul_cancel₀ _ (Gpos hk).ne', LG]

theorem psi_eq (hk : 0 < k) : LG 1 k / Real.Gamma k = psi k := by
  rw [psi, (Gamma_deriv hk).deriv]

theorem E_log1 (hk : 0 < k) : E k Real.log (psi k) := by
  have := E_log hk 1
  rw [psi_eq hk] at this
  exact this.congr fun p _ _ => by simp

theorem E_pow (hk : 0 < k) (n : ℕ) : E k (fun x => x ^ n) (Real.Gamma (k + n) / Real.Gamma k) :=
  (E_rpow hk (s := n) (by positivity)).congr fun p _ _ => by simp

theorem E_id (hk : 0 < k) : E k (fun x => x) k := by
  have := E_pow hk 1
  rw [Nat.cast_one, Real.Gamma_add_one hk.ne', mul_div_cancel_right₀ _ (Gpos hk).ne'] at this
  exact this.congr fun p _ _ => by simp

theorem E_sq (hk : 0 < k) : E k (fun x => x ^ 2) (k * (k + 1)) := by
  have := E_pow hk 2
  have e : Real.Gamma (k + (2:ℕ)) / Real.Gamma k = k * (k + 1) := by
    have h := (Gpos hk).ne'
    rw [show k + ((2:ℕ):ℝ) = k + 1 + 1 by push_cast; ring, Real.Gamma_add_one (by positivity), Real.Gamma_add_one hk.ne']
    field_simp
  rwa [e] at this

theorem E_cube (hk : 0 < k) : E k (fun x => x ^ 3) (k * (k + 1) * (k + 2)) := by
  have := E_pow hk 3
  have e : Real.Gamma (k + (3:ℕ)) / Real.Gamma k = k * (k + 1) * (k + 2) := by
    have h := (Gpos hk).ne'
    rw [show k + ((3:ℕ):ℝ) = k + 1 + 1 + 1 by push_cast; ring, Real.Gamma_add_one (by positivity),
      Real.Gamma_add_one (by positivity), Real.Gamma_add_one hk.ne']
    field_simp; ring
  rwa [e] at this

theorem E_four (hk : 0 < k) : E k (fun x => x ^ 4) (k * (k + 1) * (k + 2) * (k + 3)) := by
  have := E_pow hk 4
  have e : Real.Gamma (k + (4:ℕ)) / Real.Gamma k = k * (k + 1) * (k + 2) * (k + 3) := by
    have h := (Gpos hk).ne'
    rw [show k + ((4:ℕ):ℝ) = k + 1 + 1 + 1 + 1 by push_cast; ring, Real.Gamma_add_one (by positivity),
      Real.Gamma_add_one (by positivity), Real.Gamma_add_one (by positivity), Real.Gamma_add_one hk.ne']
    field_simp; ring
  rwa [e] at this

end Mpsci.gammaD
