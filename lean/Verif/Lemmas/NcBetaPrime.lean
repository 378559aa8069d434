import Verif.Lemmas.BetaPrimeDist
import Verif.Lemmas.NcGamma
import Verif.Lemmas.NoMoment
import Verif.Lemmas.Dist.Beta

/-! The noncentral beta prime distribution: the Poisson mixture of beta prime distributions with parameters `a + j`, `b`. -/

namespace Mpsci.nbp

open Classical MeasureTheory Set Filter Topology ncg

variable {a b l z : ℝ}

theorem aj (ha : 0 < a) (j : ℕ) : 0 < a + j := by positivity

/-- the beta function decreases at most geometrically -/
theorem betaFn_ge (ha : 0 < a) (hb : 0 < b) (j : ℕ) : betaFn a b * (a / (a + b)) ^ j ≤ betaFn (a + j) b := by
  induction j with
  | zero => simp
  | succ j ih =>
    have hj := aj ha j
    push_cast
    rw [← add_assoc, beta.betaFn_succ hj hb, pow_succ, ← mul_assoc, mul_comm (betaFn a b * _)]
    refine mul_le_mul ?_ ih (mul_nonneg (betaFn_pos ha hb).le (by positivity)) (by positivity)
    rw [div_le_div_iff₀ (by positivity) (by positivity)]
    have : (0:ℝ) ≤ j := j.cast_nonneg
    nlinarith

theorem g_le (ha : 0 < a) (hb : 0 < b) (hz : 0 < z) (j : ℕ) : bpD.g (a + j) b z ≤ bpD.g a b z * ((a + b) / a) ^ j := by
  have h1 : 0 < 1 + z := by linarith
  have hB := betaFn_pos ha hb
  have hBj := betaFn_pos (aj ha j) hb
  have e : bpD.g (a + j) b z = z ^ (a - 1) / (1 + z) ^ (a + b) * (z / (1 + z)) ^ j / betaFn (a + j) b := by
    rw [bpD.g, show a + j - 1 = a - 1 + j by ring, show a + j + b = a + b + j by ring, Real.rpow_add hz, Real.rpow_add h1, Real.rpow_natCast,
      Real.rpow_natCast, div_pow]
    field_simp
  have hA : 0 ≤ z ^ (a - 1) / (1 + z) ^ (a + b) := by positivity
  rw [e, bpD.g, div_mul_eq_mul_div (z ^ (a - 1) / (1 + z) ^ (a + b)) (betaFn a b), div_le_div_iff₀ hBj hB]
  have h2 : (z / (1 + z)) ^ j ≤ 1 := pow_le_one₀ (by positivity) ((div_le_one h1).2 (by linarith))
  have h3 := betaFn_ge ha hb j
  have h4 : betaFn a b ≤ ((a + b) / a) ^ j * betaFn (a + j) b := by
    have := mul_le_mul_of_nonneg_left h3 (show 0 ≤ ((a + b) / a) ^ j by positivity)
    rwa [mul_left_comm, ← mul_pow, div_mul_div_comm, mul_comm (a + b) a, div_self (by positivity), one_pow, mul_one] at this
  calc z ^ (a - 1) / (1 + z) ^ (a + b) * (z / (1 + z)) ^ j * betaFn a b
      ≤ z ^ (a - 1) / (1 + z) ^ (a + b) * 1 * (((a + b) / a) ^ j * betaFn (a + j) b) := by gcongr
    _ = _ := by ring

theorem summable_p (ha : 0 < a) (hb : 0 < b) (hl : 0 ≤ l) (hz : 0 < z) : Summable fun j : ℕ => w l j * bpD.f (a + j) b z := by
  have hs : Summable fun j : ℕ => Real.exp (-l) * bpD.g a b z * ((l * ((a + b) / a)) ^ j / j.factorial) :=
    (NormedSpace.expSeries_div_summable (l * ((a + b) / a))).mul_left _
  refine Summable.of_nonneg_of_le (fun j => mul_nonneg (w_nonneg hl j) (bpD.f_nonneg (aj ha j) hb z)) (fun j => ?_) hs
  rw [bpD.f_of_nonneg hz.le]
  refine (mul_le_mul_of_nonneg_left (g_le ha hb hz j) (w_nonneg hl j)).trans_eq ?_
  rw [w, mul_pow]; ring

/-- density -/
noncomputable def p (a b l z : ℝ) : ℝ := if z ≤ 0 then 0 else ∑' j : ℕ, w l j * bpD.f (a + j) b z
/-- distribution function -/
noncomputable def C (a b l z : ℝ) : ℝ := ∑' j : ℕ, w l j * bpD.F (a + j) b z

theorem p_nonpos (h : z ≤ 0) : p a b l z = 0 := if_pos h
theorem hasSum_p (ha : 0 < a) (hb : 0 < b) (hl : 0 ≤ l) (hz : 0 < z) : HasSum (fun j : ℕ => w l j * bpD.f (a + j) b z) (p a b l z) := by
  rw [p, if_neg hz.not_ge]; exact (summable_p ha hb hl hz).hasSum
theorem p_nonneg (ha : 0 < a) (hb : 0 < b) (hl : 0 ≤ l) (z : ℝ) : 0 ≤ p a b l z := by
  rcases le_or_gt z 0 with h | h
  · exact (p_nonpos h).ge
  · exact (hasSum_p ha hb hl h).nonneg fun j => mul_nonneg (w_nonneg hl j) (bpD.f_nonneg (aj ha j) hb z)
theorem le_p (ha : 0 < a) (hb : 0 < b) (hl : 0 ≤ l) (hz : 0 < z) : Real.exp (-l) * bpD.f a b z ≤ p a b l z := by
  have := le_hasSum (hasSum_p ha hb hl hz) 0 fun j _ => mul_nonneg (w_nonneg hl j) (bpD.f_nonneg (aj ha j) hb z)
  simpa [w] using this
theorem p_pos (ha : 0 < a) (hb : 0 < b) (hl : 0 ≤ l) (hz : 0 < z) : 0 < p a b l z := by
  refine lt_of_lt_of_le ?_ (le_p ha hb hl hz)
  rw [bpD.f_of_nonneg hz.le]; exact mul_pos (Real.exp_pos _) (bpD.g_pos ha hb hz)
theorem C_nonpos (h : z ≤ 0) : C a b l z = 0 := by simp [C, bpD.F_nonpos h]
theorem hasSum_C (ha : 0 < a) (hb : 0 < b) (hl : 0 ≤ l) (z : ℝ) : HasSum (fun j : ℕ => w l j * bpD.F (a + j) b z) (C a b l z) := by
  refine Summable.hasSum (Summable.of_nonneg_of_le (fun j => mul_nonneg (w_nonneg hl j) ((bpD.isDist (aj ha j) hb).nonneg z)) (fun j => ?_)
    (ncg.hasSum_w l).summable)
  exact mul_le_of_le_one_right (w_nonneg hl j) ((bpD.isDist (aj ha j) hb).le_one z)

theorem ae_hasSum (ha : 0 < a) (hb : 0 < b) (hl : 0 ≤ l) : ∀ᵐ z : ℝ, HasSum (fun j : ℕ => w l j * bpD.f (a + j) b z) (p a b l z) := by
  have : ∀ᵐ y : ℝ, y ≠ 0 := by simp [ae_iff, measure_singleton]
  filter_upwards [this] with y hy
  rcases lt_or_gt_of_ne hy with h | h
  · simp only [bpD.f_neg h, p_nonpos h.le, mul_zero]; exact hasSum_zero
  · exact hasSum_p ha hb hl h

/-- integrals against the mixture -/
theorem integral_p (ha : 0 < a) (hb : 0 < b) (hl : 0 ≤ l) {h : ℝ → ℝ} {m : ℕ → ℝ} {S : ℝ} (h0 : ∀ z, 0 ≤ h z ∨ z < 0)
    (hm : ∀ j : ℕ, Integrable (fun z => h z * bpD.f (a + j) b z) ∧ ∫ z, h z * bpD.f (a + j) b z = m j)
    (hS : HasSum (fun j => w l j * m j) S) : Integrable (fun z => h z * p a b l z) ∧ ∫ z, h z * p a b l z = S := by
  refine integral_mix (f := fun j z => w l j * (h z * bpD.f (a + j) b z)) (fun j => (hm j).1.const_mul _) (fun j z => ?_) ?_ ?_
  · rcases h0 z with h | h
    · exact mul_nonneg (w_nonneg hl j) (mul_nonneg h (bpD.f_nonneg (aj ha j) hb z))
    · simp only [bpD.f_neg h, mul_zero]; exact le_rfl
  · refine hS.congr_fun' fun j => ?_
    rw [integral_const_mul (w l j), (hm j).2]
  · filter_upwards [ae_hasSum ha hb hl] with z hz
    exact (hz.mul_left (h z)).congr_fun' fun j => by ring

theorem isDist (ha : 0 < a) (hb : 0 < b) (hl : 0 ≤ l) : IsDist (C a b l) (p a b l) := by
  have h1 := integral_p ha hb hl (h := fun _ => 1) (m := fun _ => 1) (S := 1) (fun _ => Or.inl zero_le_one)
    (fun j => by simp only [one_mul]; exact ⟨(bpD.isDist (aj ha j) hb).integrable, (bpD.isDist (aj ha j) hb).integral_one⟩) (by simpa using ncg.hasSum_w l)
  simp only [one_mul] at h1
  have hD := isDist_of_density (p_nonneg ha hb hl) h1.1 h1.2
  have e : (fun x => ∫ t in Iic x, p a b l t) = C a b l := by
    funext x
    have h2 := integral_p ha hb hl (h := (Iic x).indicator fun _ => 1) (m := fun j => bpD.F (a + j) b x)
      (fun z => Or.inl (indicator_nonneg (fun _ _ => zero_le_one) z)) (fun j => ?_) (hasSum_C ha hb hl x)
    · rw [← h2.2, ← integral_indicator measurableSet_Iic]
      congr 1; funext z; by_cases hz : z ∈ Iic x <;> simp [hz]
    · have e : (fun z => (Iic x).indicator (fun _ => (1:ℝ)) z * bpD.f (a + j) b z) = (Iic x).indicator (bpD.f (a + j) b) := by
        funext z; by_cases hz : z ∈ Iic x <;> simp [hz]
      rw [e, integral_indicator measurableSet_Iic]
      exact ⟨(bpD.isDist (aj ha j) hb).integrable.indicator measurableSet_Iic, (bpD.isDist (aj ha j) hb).integral_Iic x⟩
  rw [e] at hD
  exact hD

/-- moments of the beta prime distribution -/
theorem bp_moment (ha : 0 < a) (n : ℕ) (hn : n < b) : Integrable (fun z => z ^ n * bpD.f a b z) ∧ ∫ z, z ^ n * bpD.f a b z = bpD.m a b n := by
  have hb : 0 < b := lt_of_le_of_lt n.cast_nonneg hn
  have h := (bpD.isDist ha hb).expect (bpD.F_Q ha hb) (h := fun z => z ^ n) (Measurable.aestronglyMeasurable (by fun_prop))
  have h2 := bpD.Yn ha hb n hn
  exact ⟨h.1.1 h2.1, by rw [← h.2, h2.2]; rfl⟩

theorem moment (ha : 0 < a) (hl : 0 ≤ l) (n : ℕ) (hn : n < b) {S : ℝ} (hS : HasSum (fun j : ℕ => w l j * bpD.m (a + j) b n) S) :
    Integrable (fun z => z ^ n * p a b l z) ∧ ∫ z, z ^ n * p a b l z = S :=
  integral_p ha (lt_of_le_of_lt n.cast_nonneg hn) hl (h := fun z => z ^ n)
    (fun z => (lt_or_ge z 0).symm.imp (fun h => pow_nonneg h n) id) (fun j => bp_moment (aj ha j) n hn) hS

theorem hasSum_m1 (ha : 0 < a) (hb : 1 < b) : HasSum (fun j : ℕ => w l j * bpD.m (a + j) b 1) ((a + l) / (b - 1)) := by
  have h := ((hasSum_w1 l).add ((ncg.hasSum_w l).mul_left a)).div_const (b - 1)
  rw [mul_one, add_comm] at h
  refine h.congr_fun' fun j => ?_
  rw [bpD.m_one (aj ha j) hb]; ring
theorem hasSum_m2 (ha : 0 < a) (hb : 2 < b) :
    HasSum (fun j : ℕ => w l j * bpD.m (a + j) b 2) ((l * (l + 1) + (2 * a + 1) * l + a * (a + 1)) / ((b - 1) * (b - 2))) := by
  have h := (((hasSum_w2 l).add ((hasSum_w1 l).mul_left (2 * a + 1))).add ((ncg.hasSum_w l).mul_left (a * (a + 1)))).div_const ((b - 1) * (b - 2))
  rw [mul_one] at h
  refine h.congr_fun' fun j => ?_
  rw [bpD.m_two (aj ha j) hb]; ring

theorem mean (ha : 0 < a) (hl : 0 ≤ l) (hb : 1 < b) : Integrable (fun z => z * p a b l z) ∧ ∫ z, z * p a b l z = (a + l) / (b - 1) := by
  simpa only [pow_one] using moment ha hl 1 (by simpa using hb) (hasSum_m1 ha hb)

theorem hasMV (ha : 0 < a) (hl : 0 ≤ l) (hb : 2 < b) :
    HasMV (p a b l) ((a + l) / (b - 1)) (((a + l) ^ 2 + (a + 2 * l) * (b - 1)) / ((b - 1) ^ 2 * (b - 2))) := by
  have h1 := mean ha hl (show 1 < b by linarith)
  have h2 := moment ha hl 2 (by exact_mod_cast hb) (hasSum_m2 ha hb)
  have hD := isDist ha (show 0 < b by linarith) hl
  refine ⟨hD.integrable, hD.integral_one, h1.1, h1.2, h2.1, ?_⟩
  have e1 : b - 1 ≠ 0 := by linarith
  have e2 : b - 2 ≠ 0 := by linarith
  rw [h2.2]; field_simp; ring

/-- There is no moment of order at least `b`. -/
theorem not_moment (ha : 0 < a) (hb : 0 < b) (hl : 0 ≤ l) (n : ℕ) (hn : b ≤ n) : ¬ Integrable fun z => z ^ n * p a b l z := by
  intro h
  have hD := bpD.isDist ha hb
  refine bpD.not_int ha hb n hn ((hD.expect (bpD.F_Q ha hb) (h := fun z => z ^ n) (Measurable.aestronglyMeasurable (by fun_prop))).1.2 ?_)
  refine Integrable.mono' (h.const_mul (Real.exp l)) ((Measurable.aestronglyMeasurable (by fun_prop)).mul hD.integrable.aestronglyMeasurable) ?_
  have : ∀ᵐ y : ℝ, y ≠ 0 := by simp [ae_iff, measure_singleton]
  filter_upwards [this] with y hy
  rcases lt_or_gt_of_ne hy with h | h
  · rw [bpD.f_neg h, p_nonpos h.le]; simp
  · rw [Real.norm_of_nonneg (mul_nonneg (pow_nonneg h.le n) (bpD.f_nonneg ha hb y))]
    have h2 := mul_le_mul_of_nonneg_left (le_p ha hb hl h) (Real.exp_pos l).le
    rw [← mul_assoc, ← Real.exp_add, add_neg_cancel, Real.exp_zero, one_mul] at h2
    nlinarith [pow_pos h n]

end Mpsci.nbp
