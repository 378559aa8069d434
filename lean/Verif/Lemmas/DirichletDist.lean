import Verif.Lemmas.BetaDist
import Mathlib.MeasureTheory.Constructions.Pi
import Mathlib.MeasureTheory.Measure.Lebesgue.Basic

/-!
# The Dirichlet integral

The simplex is parametrised by all coordinates but the last one.
-/

namespace Mpsci.dirD

open MeasureTheory Set

/-- the beta integral on `(0, c)` -/
theorem beta_scaled {p q c : ℝ} (hp : 0 < p) (hq : 0 < q) (hc : 0 < c) : IntegrableOn (fun s => s ^ (p - 1) * (c - s) ^ (q - 1)) (Ioo 0 c) ∧
    ∫ s in Ioo 0 c, s ^ (p - 1) * (c - s) ^ (q - 1) = c ^ (p + q - 1) * betaFn p q := by
  have e : ∀ x ∈ Ioo (0:ℝ) 1, (c * x) ^ (p - 1) * (c - c * x) ^ (q - 1) = c ^ (p + q - 2) * betaD.w p q x := by
    rintro x ⟨h0, h1⟩
    rw [betaD.w, show c - c * x = c * (1 - x) by ring, Real.mul_rpow hc.le h0.le, Real.mul_rpow hc.le (by linarith),
      show p + q - 2 = (p - 1) + (q - 1) by ring, Real.rpow_add hc]
    ring
  have hi : IntegrableOn (fun x => (c * x) ^ (p - 1) * (c - c * x) ^ (q - 1)) (Ioo 0 1) :=
    IntegrableOn.congr_fun ((betaD.w_int hp hq).const_mul _) (fun x hx => (e x hx).symm) measurableSet_Ioo
  have hv : ∫ x in Ioo (0:ℝ) 1, (c * x) ^ (p - 1) * (c - c * x) ^ (q - 1) = c ^ (p + q - 2) * betaFn p q := by
    rw [setIntegral_congr_fun measurableSet_Ioo e, integral_const_mul, betaD.w_val hp hq]
  have him : (fun x : ℝ => c * x) '' Ioo 0 1 = Ioo 0 c := by
    rw [image_mul_left_Ioo hc]; simp
  have hd : ∀ x ∈ Ioo (0:ℝ) 1, HasDerivWithinAt (fun x : ℝ => c * x) c (Ioo 0 1) x := fun x _ => by
    simpa using ((hasDerivAt_id x).const_mul c).hasDerivWithinAt
  have hinj : InjOn (fun x : ℝ => c * x) (Ioo 0 1) := fun x _ y _ h => mul_left_cancel₀ hc.ne' h
  have k1 := integrableOn_image_iff_integrableOn_abs_deriv_smul measurableSet_Ioo hd hinj (fun s => s ^ (p - 1) * (c - s) ^ (q - 1))
  have k2 := integral_image_eq_integral_abs_deriv_smul measurableSet_Ioo hd hinj (fun s => s ^ (p - 1) * (c - s) ^ (q - 1))
  rw [him] at k1 k2
  simp only [smul_eq_mul, abs_of_pos hc] at k1 k2
  refine ⟨k1.2 (hi.const_mul c), ?_⟩
  rw [k2, integral_const_mul, hv, ← mul_assoc, show p + q - 1 = 1 + (p + q - 2) by ring, Real.rpow_add hc, Real.rpow_one]

open Classical in
noncomputable def K {n : ℕ} (a : Fin n → ℝ) (b c : ℝ) (y : Fin n → ℝ) : ℝ :=
  if (∀ i, 0 < y i) ∧ ∑ i, y i < c then (∏ i, y i ^ (a i - 1)) * (c - ∑ i, y i) ^ (b - 1) else 0

theorem measurableSet_simplex {n : ℕ} (c : ℝ) : MeasurableSet {y : Fin n → ℝ | (∀ i, 0 < y i) ∧ ∑ i, y i < c} := by
  refine MeasurableSet.inter (s₁ := {y : Fin n → ℝ | ∀ i, 0 < y i}) (s₂ := {y | ∑ i, y i < c}) ?_
    (measurableSet_lt (by fun_prop) (by fun_prop))
  rw [ofPred_forall]
  exact MeasurableSet.iInter fun i => measurableSet_lt (by fun_prop) (by fun_prop)

theorem measurable_K {n : ℕ} (a : Fin n → ℝ) (b c : ℝ) : Measurable (K a b c) := by
  refine Measurable.ite (measurableSet_simplex c) ?_ measurable_const
  refine Measurable.mul (Finset.measurable_prod _ fun i _ => ?_) (by fun_prop)
  fun_prop

theorem K_nonneg {n : ℕ} (a : Fin n → ℝ) (b c : ℝ) (y : Fin n → ℝ) : 0 ≤ K a b c y := by
  unfold K; split_ifs with h
  · exact mul_nonneg (Finset.prod_nonneg fun i _ => Real.rpow_nonneg (h.1 i).le _) (Real.rpow_nonneg (by linarith [h.2]) _)
  · exact le_rfl

theorem K_of_nonpos {n : ℕ} (a : Fin n → ℝ) (b : ℝ) {c : ℝ} (hc : c ≤ 0) (y : Fin n → ℝ) : K a b c y = 0 := by
  refine if_neg fun ⟨h1, h2⟩ => ?_
  have := Finset.sum_nonneg fun i (_ : i ∈ Finset.univ) => (h1 i).le
  linarith

theorem K_cons {n : ℕ} (a : Fin (n + 1) → ℝ) (b c s : ℝ) (z : Fin n → ℝ) :
    K a b c (Fin.cons s z) = if 0 < s then s ^ (a 0 - 1) * K (fun i => a i.succ) b (c - s) z else 0 := by
  by_cases hs : 0 < s
  · simp only [K, Fin.forall_fin_succ, Fin.cons_zero, Fin.cons_succ, Fin.sum_univ_succ, Fin.prod_univ_succ, hs, true_and, if_true]
    have h1 : s + ∑ i, z i < c ↔ ∑ i, z i < c - s := ⟨fun h => by linarith, fun h => by linarith⟩
    simp only [h1]
    split_ifs
    · rw [show c - (s + ∑ i, z i) = c - s - ∑ i, z i by ring]; ring
    · simp
  · rw [if_neg hs, K, if_neg]
    rintro ⟨h, -⟩
    exact hs (by simpa using h 0)

theorem lint {n : ℕ} (a : Fin n → ℝ) {b c : ℝ} (ha : ∀ i, 0 < a i) (hb : 0 < b) (hc : 0 < c) : ∫⁻ y, ENNReal.ofReal (K a b c y) =
    ENNReal.ofReal (c ^ (∑ i, a i + b - 1) * ((∏ i, Real.Gamma (a i)) * Real.Gamma b / Real.Gamma (∑ i, a i + b))) := by
  induction n generalizing c with
  | zero =>
    have e : ∀ y : Fin 0 → ℝ, K a b c y = c ^ (b - 1) := fun y => by simp [K, hc]
    simp only [e, lintegral_const, Finset.univ_eq_empty, Finset.sum_empty, Finset.prod_empty, zero_add, one_mul,
      div_self (Real.Gamma_pos_of_pos hb).ne', mul_one]
    rw [show (volume : Measure (Fin 0 → ℝ)) univ = 1 by simp [volume_pi, Measure.pi_of_empty], mul_one]
  | succ n ih =>
    set A := ∑ i : Fin n, a i.succ with hA
    have hA0 : 0 ≤ A := Finset.sum_nonneg fun i _ => (ha i.succ).le
    set C := (∏ i : Fin n, Real.Gamma (a i.succ)) * Real.Gamma b / Real.Gamma (A + b) with hC
    have hC0 : 0 ≤ C := div_nonneg (mul_nonneg (Finset.prod_nonneg fun i _ => (Real.Gamma_pos_of_pos (ha i.succ)).le)
      (Real.Gamma_pos_of_pos hb).le) (Real.Gamma_pos_of_pos (by linarith)).le
    have e1 := ((volume_preserving_piFinSuccAbove (fun _ : Fin (n + 1) => ℝ) 0).symm).lintegral_comp
      (f := fun y => ENNReal.ofReal (K a b c y)) (measurable_K a b c).ennreal_ofReal
    rw [← e1, Measure.volume_eq_prod, lintegral_prod _ (by
      exact ((measurable_K a b c).ennreal_ofReal.comp (MeasurableEquiv.measurable _)).aemeasurable)]
    have e2 : ∀ s : ℝ, ∫⁻ z : Fin n → ℝ, ENNReal.ofReal (K a b c ((MeasurableEquiv.piFinSuccAbove (fun _ : Fin (n + 1) => ℝ) 0).symm (s, z))) =
        (Ioo 0 c).indicator (fun s => ENNReal.ofReal (C * (s ^ (a 0 - 1) * (c - s) ^ (A + b - 1)))) s := by
      intro s
      have e3 : ∀ z : Fin n → ℝ, (MeasurableEquiv.piFinSuccAbove (fun _ : Fin (n + 1) => ℝ) 0).symm (s, z) = (Fin.cons s z : Fin (n + 1) → ℝ) := by
        intro z; simp [MeasurableEquiv.piFinSuccAbove, Fin.consEquiv]
      simp only [e3, K_cons]
      by_cases hs : 0 < s
      · simp only [if_pos hs]
        by_cases hsc : s < c
        · rw [indicator_of_mem (show s ∈ Ioo 0 c from ⟨hs, hsc⟩)]
          simp only [ENNReal.ofReal_mul (Real.rpow_nonneg hs.le (a 0 - 1))]
          rw [lintegral_const_mul _ (measurable_K _ _ _).ennreal_ofReal, ih _ (fun i => ha i.succ) (by linarith : 0 < c - s),
            ← ENNReal.ofReal_mul (Real.rpow_nonneg hs.le _)]
          congr 1; rw [← hA, ← hC]; ring
        · rw [indicator_of_notMem (by simp [hsc])]
          simp [K_of_nonpos _ _ (by linarith : c - s ≤ 0)]
      · rw [indicator_of_notMem (by simp [hs])]
        simp [if_neg hs]
    rw [lintegral_congr e2, lintegral_indicator measurableSet_Ioo]
    obtain ⟨h1, h2⟩ := beta_scaled (ha 0) (by linarith : 0 < A + b) hc
    rw [← ofReal_integral_eq_lintegral_ofReal (h1.const_mul C), integral_const_mul, h2]
    · congr 1
      rw [Fin.sum_univ_succ, Fin.prod_univ_succ, betaFn, hC, ← hA, show a 0 + (A + b) - 1 = a 0 + A + b - 1 by ring,
        show a 0 + (A + b) = a 0 + A + b by ring]
      have := (Real.Gamma_pos_of_pos (by linarith : 0 < A + b)).ne'
      field_simp
    · filter_upwards [self_mem_ae_restrict measurableSet_Ioo] with s hs
      exact mul_nonneg hC0 (mul_nonneg (Real.rpow_nonneg hs.1.le _) (Real.rpow_nonneg (by linarith [hs.2]) _))

/-! ### All coordinates on the same footing -/

open Function Filter Topology

variable {n : ℕ}

/-- the open simplex -/
def T (n : ℕ) : Set (Fin n → ℝ) := {y | (∀ i, 0 < y i) ∧ ∑ i, y i < 1}

/-- the point of the simplex with first coordinates `y` -/
def ext (y : Fin n → ℝ) : Fin (n + 1) → ℝ := Fin.snoc y (1 - ∑ i, y i)

noncomputable def W (a : Fin (n + 1) → ℝ) (y : Fin n → ℝ) : ℝ := ∏ i, ext y i ^ (a i - 1)
noncomputable def D (a : Fin (n + 1) → ℝ) : ℝ := (∏ i, Real.Gamma (a i)) / Real.Gamma (∑ i, a i)

theorem measurableSet_T : MeasurableSet (T n) := measurableSet_simplex 1

theorem measurable_ext (i : Fin (n + 1)) : Measurable fun y : Fin n → ℝ => ext y i := by
  refine Fin.lastCases ?_ (fun i => ?_) i
  · simp only [ext, Fin.snoc_last]; fun_prop
  · simp only [ext, Fin.snoc_castSucc]; fun_prop

theorem measurable_W (a : Fin (n + 1) → ℝ) : Measurable (W a) :=
  Finset.measurable_prod _ fun i _ => (measurable_ext i).pow_const _

theorem ext_pos {y : Fin n → ℝ} (h : y ∈ T n) (i : Fin (n + 1)) : 0 < ext y i := by
  refine Fin.lastCases ?_ (fun i => ?_) i
  · simp only [ext, Fin.snoc_last]; linarith [h.2]
  · simp only [ext, Fin.snoc_castSucc]; exact h.1 i

theorem sum_ext (y : Fin n → ℝ) : ∑ i, ext y i = 1 := by
  rw [Fin.sum_univ_castSucc]; simp [ext]

theorem ext_le {y : Fin n → ℝ} (h : y ∈ T n) (i : Fin (n + 1)) : ext y i ≤ 1 := by
  rw [← sum_ext y]
  exact Finset.single_le_sum (fun j _ => (ext_pos h j).le) (Finset.mem_univ i)

theorem W_pos (a : Fin (n + 1) → ℝ) {y : Fin n → ℝ} (h : y ∈ T n) : 0 < W a y :=
  Finset.prod_pos fun i _ => Real.rpow_pos_of_pos (ext_pos h i) _

theorem D_pos {a : Fin (n + 1) → ℝ} (ha : ∀ i, 0 < a i) : 0 < D a :=
  div_pos (Finset.prod_pos fun i _ => Real.Gamma_pos_of_pos (ha i))
    (Real.Gamma_pos_of_pos (Finset.sum_pos (fun i _ => ha i) Finset.univ_nonempty))

theorem int_W {a : Fin (n + 1) → ℝ} (ha : ∀ i, 0 < a i) : IntegrableOn (W a) (T n) ∧ ∫ y in T n, W a y = D a := by
  have e : (T n).indicator (W a) = K (fun i => a i.castSucc) (a (Fin.last n)) 1 := by
    funext y
    by_cases h : y ∈ T n
    · rw [indicator_of_mem h, K, if_pos (show (∀ i, 0 < y i) ∧ ∑ i, y i < 1 from h), W, Fin.prod_univ_castSucc]; simp [ext]
    · rw [indicator_of_notMem h, K, if_neg (show ¬ ((∀ i, 0 < y i) ∧ ∑ i, y i < 1) from h)]
  have hl := lint (fun i => a i.castSucc) (fun i => ha i.castSucc) (ha (Fin.last n)) one_pos
  rw [Real.one_rpow, one_mul, ← Fin.prod_univ_castSucc (fun i => Real.Gamma (a i)), ← Fin.sum_univ_castSucc] at hl
  have hi : Integrable ((T n).indicator (W a)) := by
    rw [e]
    refine ⟨(measurable_K _ _ _).aestronglyMeasurable, ?_⟩
    rw [hasFiniteIntegral_iff_ofReal (Eventually.of_forall fun y => K_nonneg _ _ _ y), hl]
    exact ENNReal.ofReal_lt_top
  refine ⟨(integrable_indicator_iff measurableSet_T).1 hi, ?_⟩
  rw [← integral_indicator measurableSet_T, e, integral_eq_lintegral_of_nonneg_ae (Eventually.of_forall fun y => K_nonneg _ _ _ y)
    (measurable_K _ _ _).aestronglyMeasurable, hl]
  exact ENNReal.toReal_ofReal (D_pos ha).le

noncomputable def R (a : Fin (n + 1) → ℝ) (j : Fin (n + 1)) (y : Fin n → ℝ) : ℝ := ∏ i ∈ Finset.univ.erase j, ext y i ^ (a i - 1)

theorem W_update (a : Fin (n + 1) → ℝ) (j : Fin (n + 1)) (s : ℝ) (y : Fin n → ℝ) : W (update a j s) y = ext y j ^ (s - 1) * R a j y := by
  rw [W, ← Finset.mul_prod_erase _ _ (Finset.mem_univ j), update_self, R]
  congr 1
  exact Finset.prod_congr rfl fun i hi => by rw [update_of_ne (Finset.ne_of_mem_erase hi)]

theorem R_pos (a : Fin (n + 1) → ℝ) (j : Fin (n + 1)) {y : Fin n → ℝ} (h : y ∈ T n) : 0 < R a j y :=
  Finset.prod_pos fun i _ => Real.rpow_pos_of_pos (ext_pos h i) _

theorem D_update (a : Fin (n + 1) → ℝ) (j : Fin (n + 1)) (s : ℝ) : D (update a j s) =
    Real.Gamma s * (∏ i ∈ Finset.univ.erase j, Real.Gamma (a i)) / Real.Gamma (s + ∑ i ∈ Finset.univ.erase j, a i) := by
  rw [D, ← Finset.mul_prod_erase _ _ (Finset.mem_univ j), ← Finset.add_sum_erase _ _ (Finset.mem_univ j), update_self]
  rw [Finset.prod_congr rfl fun i hi => by rw [update_of_ne (Finset.ne_of_mem_erase hi)],
    Finset.sum_congr rfl fun i hi => update_of_ne (Finset.ne_of_mem_erase hi) s a]

theorem sum_erase (a : Fin (n + 1) → ℝ) (j : Fin (n + 1)) : a j + ∑ i ∈ Finset.univ.erase j, a i = ∑ i, a i :=
  Finset.add_sum_erase _ _ (Finset.mem_univ j)

theorem update_pos {a : Fin (n + 1) → ℝ} (ha : ∀ i, 0 < a i) (j : Fin (n + 1)) {s : ℝ} (hs : 0 < s) : ∀ i, 0 < update a j s i := fun i => by
  rcases eq_or_ne i j with rfl | h
  · rwa [update_self]
  · rw [update_of_ne h]; exact ha i

theorem W_mul (a : Fin (n + 1) → ℝ) (j : Fin (n + 1)) {y : Fin n → ℝ} (h : y ∈ T n) : ext y j * W a y = W (update a j (a j + 1)) y := by
  conv_lhs => rw [← update_eq_self j a]
  rw [W_update, W_update, ← mul_assoc, show a j + 1 - 1 = 1 + (a j - 1) by ring, Real.rpow_add (ext_pos h j), Real.rpow_one]

theorem D_succ {a : Fin (n + 1) → ℝ} (ha : ∀ i, 0 < a i) (j : Fin (n + 1)) : D (update a j (a j + 1)) = D a * (a j / ∑ i, a i) := by
  have hs : 0 < ∑ i, a i := Finset.sum_pos (fun i _ => ha i) Finset.univ_nonempty
  conv_rhs => rw [← update_eq_self j a]
  rw [D_update, D_update, update_eq_self, show a j + 1 + ∑ i ∈ Finset.univ.erase j, a i = ∑ i, a i + 1 by rw [← sum_erase a j]; ring, sum_erase,
    Real.Gamma_add_one (ha j).ne', Real.Gamma_add_one hs.ne']
  have := (Real.Gamma_pos_of_pos hs).ne'
  field_simp

theorem int_ext {a : Fin (n + 1) → ℝ} (ha : ∀ i, 0 < a i) (j : Fin (n + 1)) : IntegrableOn (fun y => ext y j * W a y) (T n) ∧
    ∫ y in T n, ext y j * W a y = D a * (a j / ∑ i, a i) := by
  have h := int_W (update_pos ha j (by linarith [ha j] : 0 < a j + 1))
  refine ⟨IntegrableOn.congr_fun h.1 (fun y hy => (W_mul a j hy).symm) measurableSet_T, ?_⟩
  rw [setIntegral_congr_fun measurableSet_T (fun y hy => W_mul a j hy), h.2, D_succ ha]

theorem int_ext_mul {a : Fin (n + 1) → ℝ} (ha : ∀ i, 0 < a i) (i j : Fin (n + 1)) : IntegrableOn (fun y => ext y i * ext y j * W a y) (T n) ∧
    ∫ y in T n, ext y i * ext y j * W a y = D a * (a j * (a i + if i = j then 1 else 0) / ((∑ i, a i) * (∑ i, a i + 1))) := by
  have hs : 0 < ∑ i, a i := Finset.sum_pos (fun i _ => ha i) Finset.univ_nonempty
  have h := int_ext (update_pos ha j (by linarith [ha j] : 0 < a j + 1)) i
  have e : ∀ y ∈ T n, ext y i * ext y j * W a y = ext y i * W (update a j (a j + 1)) y := fun y hy => by rw [mul_assoc, W_mul a j hy]
  refine ⟨IntegrableOn.congr_fun h.1 (fun y hy => (e y hy).symm) measurableSet_T, ?_⟩
  have e2 : ∑ k, update a j (a j + 1) k = ∑ k, a k + 1 := by
    rw [← sum_erase _ j, update_self, ← sum_erase a j, Finset.sum_congr rfl fun i hi => by rw [update_of_ne (Finset.ne_of_mem_erase hi)]]; ring
  rw [setIntegral_congr_fun measurableSet_T e, h.2, D_succ ha, e2]
  have e3 : update a j (a j + 1) i = a i + if i = j then 1 else 0 := by
    rcases eq_or_ne i j with rfl | h
    · simp
    · simp [update_of_ne h, h]
  rw [e3]; field_simp

theorem hasDerivAt_Gamma {x : ℝ} (hx : 0 < x) : HasDerivAt Real.Gamma (Real.Gamma x * psi x) x := by
  have := (differentiableAt_Gamma hx).hasDerivAt
  rwa [show deriv Real.Gamma x = Real.Gamma x * psi x by rw [psi, mul_div_cancel₀ _ (Real.Gamma_pos_of_pos hx).ne']] at this

theorem D_deriv {a : Fin (n + 1) → ℝ} (ha : ∀ i, 0 < a i) (j : Fin (n + 1)) :
    HasDerivAt (fun s => D (update a j s)) (D a * (psi (a j) - psi (∑ i, a i))) (a j) := by
  have hs : 0 < ∑ i, a i := Finset.sum_pos (fun i _ => ha i) Finset.univ_nonempty
  set B := ∑ i ∈ Finset.univ.erase j, a i with hB
  have hB2 : a j + B = ∑ i, a i := sum_erase a j
  have d1 := hasDerivAt_Gamma (ha j)
  have d2 := (hasDerivAt_Gamma (by rw [hB2]; exact hs : 0 < a j + B)).comp_add_const (a j) B
  have h2 := (Real.Gamma_pos_of_pos (by rw [hB2]; exact hs : 0 < a j + B)).ne'
  have e : (fun s => D (update a j s)) = fun s => Real.Gamma s * (∏ i ∈ Finset.univ.erase j, Real.Gamma (a i)) / Real.Gamma (s + B) :=
    funext fun s => D_update a j s
  rw [e]
  refine ((d1.mul_const _).div d2 h2).congr_deriv ?_
  have e3 : D a = Real.Gamma (a j) * (∏ i ∈ Finset.univ.erase j, Real.Gamma (a i)) / Real.Gamma (a j + B) := by
    conv_lhs => rw [← update_eq_self j a]
    exact D_update a j (a j)
  rw [e3, ← hB2]; field_simp

theorem log_bound {a s u r : ℝ} (ha : 0 < a) (hs : a / 2 < s) (h0 : 0 < u) (h1 : u ≤ 1) (hr : 0 ≤ r) :
    ‖Real.log u * (u ^ (s - 1) * r)‖ ≤ 4 / a * (u ^ (a / 4 - 1) * r) := by
  have h3 := Real.abs_log_mul_self_rpow_lt u (a / 4) h0 h1 (by positivity)
  have h4 : u ^ (s - 1) ≤ u ^ (a / 4) * u ^ (a / 4 - 1) := by
    rw [← Real.rpow_add h0]
    exact Real.rpow_le_rpow_of_exponent_ge h0 h1 (by linarith)
  have h5 : 0 < u ^ (a / 4 - 1) := Real.rpow_pos_of_pos h0 _
  have h7 : 0 < u ^ (a / 4) := Real.rpow_pos_of_pos h0 _
  have h8 : 0 < u ^ (s - 1) := Real.rpow_pos_of_pos h0 _
  rw [Real.norm_eq_abs, abs_mul, abs_mul, abs_of_pos h8, abs_of_nonneg hr, ← mul_assoc, ← mul_assoc]
  refine mul_le_mul_of_nonneg_right ?_ hr
  rw [abs_mul, abs_of_pos h7, one_div_div] at h3
  calc |Real.log u| * u ^ (s - 1) ≤ |Real.log u| * (u ^ (a / 4) * u ^ (a / 4 - 1)) := mul_le_mul_of_nonneg_left h4 (abs_nonneg _)
    _ = |Real.log u| * u ^ (a / 4) * u ^ (a / 4 - 1) := by ring
    _ ≤ 4 / a * u ^ (a / 4 - 1) := mul_le_mul_of_nonneg_right h3.le h5.le

theorem int_log {a : Fin (n + 1) → ℝ} (ha : ∀ i, 0 < a i) (j : Fin (n + 1)) : IntegrableOn (fun y => Real.log (ext y j) * W a y) (T n) ∧
    ∫ y in T n, Real.log (ext y j) * W a y = D a * (psi (a j) - psi (∑ i, a i)) := by
  have hd := hasDerivAt_integral_of_dominated_loc_of_deriv_le (μ := volume.restrict (T n)) (F := fun s y => W (update a j s) y)
    (F' := fun s y => Real.log (ext y j) * W (update a j s) y) (bound := fun y => 4 / a j * W (update a j (a j / 4)) y) (s := Ioi (a j / 2)) (x₀ := a j)
    (Ioi_mem_nhds (by linarith [ha j])) (Eventually.of_forall fun s => (measurable_W _).aestronglyMeasurable)
    (by rw [update_eq_self]; exact (int_W ha).1) (((measurable_ext j).log.mul (measurable_W _)).aestronglyMeasurable)
    ((ae_restrict_iff' measurableSet_T).2 (Eventually.of_forall fun y hy s hs => by
      rw [W_update, W_update]; exact log_bound (ha j) hs (ext_pos hy j) (ext_le hy j) (R_pos a j hy).le))
    ((int_W (update_pos ha j (by linarith [ha j] : 0 < a j / 4))).1.const_mul _)
    ((ae_restrict_iff' measurableSet_T).2 (Eventually.of_forall fun y hy s hs => by
      have h := (((hasDerivAt_id s).sub_const 1).const_rpow (ext_pos hy j)).mul_const (R a j y)
      refine (h.congr_of_eventuallyEq (Eventually.of_forall fun s => W_update a j s y)).congr_deriv ?_
      rw [W_update]; simp only [id]; ring))
  simp only [update_eq_self] at hd
  refine ⟨hd.1, hd.2.unique ((D_deriv ha j).congr_of_eventuallyEq ?_)⟩
  filter_upwards [Ioi_mem_nhds (ha j)] with s hs
  exact (int_W (update_pos ha j hs)).2

/-- the density, its logarithm, and the entropy integral -/
noncomputable def f (a : Fin (n + 1) → ℝ) (y : Fin n → ℝ) : ℝ := W a y / D a

theorem f_pos {a : Fin (n + 1) → ℝ} (ha : ∀ i, 0 < a i) {y : Fin n → ℝ} (h : y ∈ T n) : 0 < f a y := div_pos (W_pos a h) (D_pos ha)

theorem log_f {a : Fin (n + 1) → ℝ} (ha : ∀ i, 0 < a i) {y : Fin n → ℝ} (h : y ∈ T n) :
    Real.log (f a y) = ∑ i, (a i - 1) * Real.log (ext y i) - Real.log (D a) := by
  rw [f, Real.log_div (W_pos a h).ne' (D_pos ha).ne', W, Real.log_prod (fun i _ => (Real.rpow_pos_of_pos (ext_pos h i) _).ne')]
  congr 1
  exact Finset.sum_congr rfl fun i _ => Real.log_rpow (ext_pos h i) _

theorem log_D {a : Fin (n + 1) → ℝ} (ha : ∀ i, 0 < a i) : Real.log (D a) = ∑ i, Real.log (Real.Gamma (a i)) - Real.log (Real.Gamma (∑ i, a i)) := by
  have hs : 0 < ∑ i, a i := Finset.sum_pos (fun i _ => ha i) Finset.univ_nonempty
  rw [D, Real.log_div (Finset.prod_pos fun i _ => Real.Gamma_pos_of_pos (ha i)).ne' (Real.Gamma_pos_of_pos hs).ne',
    Real.log_prod (fun i _ => (Real.Gamma_pos_of_pos (ha i)).ne')]

theorem int_f {a : Fin (n + 1) → ℝ} (ha : ∀ i, 0 < a i) {g : (Fin n → ℝ) → ℝ} {r : ℝ}
    (h : IntegrableOn (fun y => g y * W a y) (T n) ∧ ∫ y in T n, g y * W a y = D a * r) :
    IntegrableOn (fun y => g y * f a y) (T n) ∧ ∫ y in T n, g y * f a y = r := by
  have e : (fun y => g y * f a y) = fun y => g y * W a y / D a := by funext y; rw [f]; ring
  rw [e]
  refine ⟨h.1.div_const _, ?_⟩
  rw [integral_div, h.2, mul_div_cancel_left₀ _ (D_pos ha).ne']

theorem int_one {a : Fin (n + 1) → ℝ} (ha : ∀ i, 0 < a i) : IntegrableOn (f a) (T n) ∧ ∫ y in T n, f a y = 1 := by
  have := int_f ha (g := fun _ => 1) (r := 1) (by simpa using int_W ha)
  simpa using this

theorem int_ent {a : Fin (n + 1) → ℝ} (ha : ∀ i, 0 < a i) : IntegrableOn (fun y => Real.log (f a y) * f a y) (T n) ∧
    ∫ y in T n, Real.log (f a y) * f a y = ∑ i, (a i - 1) * (psi (a i) - psi (∑ i, a i)) - Real.log (D a) := by
  have e : ∀ y ∈ T n, Real.log (f a y) * f a y = ∑ i, (a i - 1) * (Real.log (ext y i) * f a y) - Real.log (D a) * f a y := by
    intro y hy
    rw [log_f ha hy, sub_mul, Finset.sum_mul]
    congr 1
    exact Finset.sum_congr rfl fun i _ => by ring
  have h1 : ∀ i, _ := fun i => int_f ha (int_log ha i)
  have hi : IntegrableOn (fun y => ∑ i, (a i - 1) * (Real.log (ext y i) * f a y)) (T n) :=
    integrable_finsetSum _ fun i _ => (h1 i).1.const_mul _
  refine ⟨IntegrableOn.congr_fun (hi.sub ((int_one ha).1.const_mul _)) (fun y hy => (e y hy).symm) measurableSet_T, ?_⟩
  rw [setIntegral_congr_fun measurableSet_T e, integral_sub hi ((int_one ha).1.const_mul _), integral_finsetSum _ fun i _ => (h1 i).1.const_mul _,
    integral_const_mul, (int_one ha).2, mul_one]
  congr 1
  exact Finset.sum_congr rfl fun i _ => by rw [integral_const_mul, (h1 i).2]

end Mpsci.dirD
