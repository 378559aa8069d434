import Verif.Lemmas.Dist.GenInvGauss
import Verif.Lemmas.NormalDist
import Mathlib.MeasureTheory.Integral.Prod

/-! The standard generalised hyperbolic distribution: the normal distribution with mean `b v` and variance `v`, where `v` times `√(a² - b²)` has a
generalised inverse Gaussian distribution. -/

namespace Mpsci.gh

open Classical MeasureTheory Set Filter Topology

variable {p a b : ℝ}

noncomputable def d (a b : ℝ) : ℝ := √((a + b) * (a - b))

theorem prod_pos (h : |b| < a) : 0 < (a + b) * (a - b) := by
  obtain ⟨h1, h2⟩ := abs_lt.1 h
  exact mul_pos (by linarith) (by linarith)
theorem a_pos (h : |b| < a) : 0 < a := (abs_nonneg b).trans_lt h
theorem d_pos (h : |b| < a) : 0 < d a b := Real.sqrt_pos.2 (prod_pos h)
theorem d_sq (h : |b| < a) : d a b ^ 2 = a ^ 2 - b ^ 2 := by rw [d, Real.sq_sqrt (prod_pos h).le]; ring

theorem hasMV_phi : HasMV phi 0 1 :=
  ⟨phi_integrable, phi_integral, by simpa using integrable_pow_phi 1, by simpa using phi_moment1, integrable_pow_phi 2, by rw [phi_moment2]; norm_num⟩

/-- the normal density with mean `b v` and variance `v` -/
noncomputable def nd (b v z : ℝ) : ℝ := phi ((z - b * v) / √v) / √v

theorem hasMV_nd {v : ℝ} (hv : 0 < v) : HasMV (nd b v) (b * v) v := by
  have h := hasMV_phi.affine (b * v) (Real.sqrt_pos.2 hv)
  rw [mul_zero, add_zero, mul_one, Real.sq_sqrt hv.le] at h
  exact h
theorem nd_nonneg (b v z : ℝ) : 0 ≤ nd b v z := div_nonneg (phi_pos _).le (Real.sqrt_nonneg _)

/-- the joint density -/
noncomputable def G (p a b t z : ℝ) : ℝ := gig.f p (d a b) t * nd b (t / d a b) z

theorem G_nonpos {t : ℝ} (h : t ≤ 0) (z : ℝ) : G p a b t z = 0 := by rw [G, gig.f_nonpos h, zero_mul]
theorem G_nonneg (h : |b| < a) (t z : ℝ) : 0 ≤ G p a b t z := mul_nonneg (gig.f_nonneg (d_pos h) t) (nd_nonneg _ _ _)

theorem measurable_gig (p b : ℝ) : Measurable (gig.f p b) := by
  unfold gig.f kI.w
  exact Measurable.ite measurableSet_Iic measurable_const (by fun_prop)
theorem measurable_G (p a b : ℝ) : Measurable fun q : ℝ × ℝ => G p a b q.1 q.2 := by
  unfold G nd phi
  have := measurable_gig p (d a b)
  fun_prop

/-- inner integrals -/
theorem inner (h : |b| < a) (t : ℝ) : Integrable (G p a b t) ∧ ∫ z, G p a b t z = gig.f p (d a b) t := by
  rcases le_or_gt t 0 with ht | ht
  · have e : G p a b t = fun _ => 0 := funext fun z => G_nonpos ht z
    rw [e, gig.f_nonpos ht]; simp
  · have hv := hasMV_nd (b := b) (div_pos ht (d_pos h))
    refine ⟨hv.int0.const_mul _, ?_⟩
    simp only [G]; rw [integral_const_mul, hv.one, mul_one]
theorem inner1 (h : |b| < a) (t : ℝ) : Integrable (fun z => z * G p a b t z) ∧ ∫ z, z * G p a b t z = gig.f p (d a b) t * (b * (t / d a b)) := by
  rcases le_or_gt t 0 with ht | ht
  · have e : (fun z => z * G p a b t z) = fun _ => 0 := funext fun z => by rw [G_nonpos ht z, mul_zero]
    rw [e, gig.f_nonpos ht]; simp
  · have hv := hasMV_nd (b := b) (div_pos ht (d_pos h))
    have e : (fun z => z * G p a b t z) = fun z => gig.f p (d a b) t * (z * nd b (t / d a b) z) := funext fun z => by rw [G]; ring
    rw [e]
    exact ⟨hv.int1.const_mul _, by rw [integral_const_mul, hv.mean]⟩
theorem inner2 (h : |b| < a) (t : ℝ) : Integrable (fun z => z ^ 2 * G p a b t z) ∧
    ∫ z, z ^ 2 * G p a b t z = gig.f p (d a b) t * (t / d a b + (b * (t / d a b)) ^ 2) := by
  rcases le_or_gt t 0 with ht | ht
  · have e : (fun z => z ^ 2 * G p a b t z) = fun _ => 0 := funext fun z => by rw [G_nonpos ht z, mul_zero]
    rw [e, gig.f_nonpos ht]; simp
  · have hv := hasMV_nd (b := b) (div_pos ht (d_pos h))
    have e : (fun z => z ^ 2 * G p a b t z) = fun z => gig.f p (d a b) t * (z ^ 2 * nd b (t / d a b) z) := funext fun z => by rw [G]; ring
    rw [e]
    exact ⟨hv.int2.const_mul _, by rw [integral_const_mul, hv.second]⟩

theorem int_outer2 (h : |b| < a) : Integrable fun t => gig.f p (d a b) t * (t / d a b + (b * (t / d a b)) ^ 2) := by
  have h1 := (gig.mom (p := p) (d_pos h) 1).1.const_mul (1 / d a b)
  have h2 := (gig.mom (p := p) (d_pos h) 2).1.const_mul (b ^ 2 / d a b ^ 2)
  refine (h1.add h2).congr (Eventually.of_forall fun t => ?_)
  simp only [Pi.add_apply]; ring

/-- the second moment dominates -/
theorem int_dom (h : |b| < a) : Integrable (fun q : ℝ × ℝ => (1 + q.2 ^ 2) * G p a b q.1 q.2) (volume.prod volume) := by
  have e : ∀ t : ℝ, Integrable (fun z => (1 + z ^ 2) * G p a b t z) ∧ ∫ z, (1 + z ^ 2) * G p a b t z =
      gig.f p (d a b) t + gig.f p (d a b) t * (t / d a b + (b * (t / d a b)) ^ 2) := fun t => by
    have e : (fun z => (1 + z ^ 2) * G p a b t z) = fun z => G p a b t z + z ^ 2 * G p a b t z := funext fun z => by ring
    rw [e]
    exact ⟨(inner h t).1.add (inner2 h t).1, by rw [integral_add (inner h t).1 (inner2 h t).1, (inner h t).2, (inner2 h t).2]⟩
  refine (integrable_prod_iff ?_).2 ⟨Eventually.of_forall fun t => (e t).1, ?_⟩
  · exact (((measurable_const.add (measurable_snd.pow_const 2)).mul (measurable_G p a b))).aestronglyMeasurable
  · have : ∀ t : ℝ, ∫ z, ‖(1 + z ^ 2) * G p a b t z‖ = gig.f p (d a b) t + gig.f p (d a b) t * (t / d a b + (b * (t / d a b)) ^ 2) := fun t => by
      rw [← (e t).2]
      exact integral_congr_ae (Eventually.of_forall fun z => Real.norm_of_nonneg (mul_nonneg (by positivity) (G_nonneg h t z)))
    simp only [this]
    exact (gig.int_one (d_pos h)).1.add (int_outer2 h)

theorem int_prod (h : |b| < a) (g : ℝ → ℝ) (hg : Measurable g) (hb : ∀ z, |g z| ≤ 1 + z ^ 2) :
    Integrable (fun q : ℝ × ℝ => g q.2 * G p a b q.1 q.2) (volume.prod volume) := by
  refine (int_dom (p := p) h).mono' ((hg.comp measurable_snd).mul (measurable_G p a b)).aestronglyMeasurable (Eventually.of_forall fun q => ?_)
  rw [norm_mul, Real.norm_eq_abs, Real.norm_of_nonneg (G_nonneg h _ _)]
  exact mul_le_mul_of_nonneg_right (hb q.2) (G_nonneg h _ _)

/-- the density as a mixture -/
noncomputable def mix (p a b z : ℝ) : ℝ := ∫ t, G p a b t z

theorem mix_mom (h : |b| < a) (g : ℝ → ℝ) (hg : Measurable g) (hb : ∀ z, |g z| ≤ 1 + z ^ 2) :
    Integrable (fun z => g z * mix p a b z) ∧ ∫ z, g z * mix p a b z = ∫ t, ∫ z, g z * G p a b t z := by
  have hi := int_prod (p := p) h g hg hb
  have e : ∀ z, g z * mix p a b z = ∫ t, g z * G p a b t z := fun z => by rw [mix, integral_const_mul]
  simp only [e]
  exact ⟨hi.integral_prod_right, (integral_integral_swap (f := fun t z => g z * G p a b t z) hi).symm⟩

/-- the closed form -/
noncomputable def f (p a b z : ℝ) : ℝ := d a b ^ p * Real.exp (b * z) * besselKR (p - 1 / 2) (a * √(1 + z ^ 2)) * (1 + z ^ 2) ^ ((p - 1 / 2) / 2) /
  (√(2 * Real.pi) * a ^ (p - 1 / 2) * besselKR p (d a b))

theorem f_pos (h : |b| < a) (z : ℝ) : 0 < f p a b z := by
  have h1 := d_pos h
  have h2 := a_pos h
  have h3 := kI.K_pos h1 p
  have h4 := kI.K_pos (show 0 < a * √(1 + z ^ 2) by positivity) (p - 1 / 2)
  have := Real.pi_pos
  unfold f; positivity

theorem G_eq (h : |b| < a) {t : ℝ} (ht : 0 < t) (z : ℝ) : G p a b t z =
    √(d a b) * Real.exp (b * z) / (√(2 * Real.pi) * (2 * besselKR p (d a b))) * (t ^ (p - 1 / 2 - 1) *
      Real.exp (-(d a b * (1 + z ^ 2) / t + a ^ 2 * t / d a b) / 2)) := by
  have hd := d_pos h
  have hv : 0 < t / d a b := div_pos ht hd
  have hs : 0 < √(t / d a b) := Real.sqrt_pos.2 hv
  have e1 : ((z - b * (t / d a b)) / √(t / d a b)) ^ 2 = z ^ 2 * d a b / t - 2 * b * z + b ^ 2 * t / d a b := by
    rw [div_pow, Real.sq_sqrt hv.le]; field_simp; ring
  have e2 : a ^ 2 * t / d a b = d a b * t + b ^ 2 * t / d a b := by
    have := d_sq h
    field_simp; linear_combination -this
  have e3 : t ^ (p - 1) = t ^ (p - 1 / 2 - 1) * √t := by rw [Real.sqrt_eq_rpow, ← Real.rpow_add ht]; congr 1; ring
  have e4 : √(t / d a b) = √t / √(d a b) := Real.sqrt_div ht.le _
  have e5 : kI.w (d a b) t * Real.exp (-(z ^ 2 * d a b / t - 2 * b * z + b ^ 2 * t / d a b) / 2) =
      Real.exp (b * z) * Real.exp (-(d a b * (1 + z ^ 2) / t + a ^ 2 * t / d a b) / 2) := by
    rw [kI.w, ← Real.exp_add, ← Real.exp_add, e2]; congr 1; field_simp; ring
  have hst : √t ≠ 0 := (Real.sqrt_pos.2 ht).ne'
  have hsd : √(d a b) ≠ 0 := (Real.sqrt_pos.2 hd).ne'
  have hK := (kI.K_pos hd p).ne'
  have hpi : √(2 * Real.pi) ≠ 0 := (Real.sqrt_pos.2 (by have := Real.pi_pos; positivity)).ne'
  rw [G, gig.f_of_pos ht, nd, phi, e1, e3, e4]
  calc _ = t ^ (p - 1 / 2 - 1) * √(d a b) / (√(2 * Real.pi) * (2 * besselKR p (d a b))) *
        (kI.w (d a b) t * Real.exp (-(z ^ 2 * d a b / t - 2 * b * z + b ^ 2 * t / d a b) / 2)) := by field_simp
    _ = _ := by rw [e5]; ring

theorem mix_eq (h : |b| < a) (z : ℝ) : mix p a b z = f p a b z := by
  have hd := d_pos h
  have ha := a_pos h
  have hz : 0 < √(1 + z ^ 2) := Real.sqrt_pos.2 (by positivity)
  have hz2 : √(1 + z ^ 2) ^ 2 = 1 + z ^ 2 := Real.sq_sqrt (by positivity)
  set c := d a b * √(1 + z ^ 2) / a with hc
  have hc0 : 0 < c := by positivity
  have h1 : mix p a b z = ∫ t in Ioi (0:ℝ), G p a b t z := by
    rw [mix]; exact integral_Ioi_of_zero fun t ht => G_nonpos ht.le z
  have h2 := integral_comp_mul_left_Ioi (fun t => G p a b t z) 0 hc0
  rw [mul_zero, smul_eq_mul] at h2
  have h3 : ∀ s ∈ Ioi (0:ℝ), G p a b (c * s) z = √(d a b) * Real.exp (b * z) / (√(2 * Real.pi) * (2 * besselKR p (d a b))) * c ^ (p - 1 / 2 - 1) *
      (s ^ (p - 1 / 2 - 1) * kI.w (a * √(1 + z ^ 2)) s) := fun s hs => by
    have hs' : (0:ℝ) < s := hs
    rw [G_eq h (mul_pos hc0 hs'), Real.mul_rpow hc0.le hs'.le, kI.w]
    have e : -(d a b * (1 + z ^ 2) / (c * s) + a ^ 2 * (c * s) / d a b) / 2 = -(a * √(1 + z ^ 2)) * (s + 1 / s) / 2 := by
      rw [hc]; field_simp; rw [hz2]; ring
    rw [e]; ring
  rw [setIntegral_congr_fun measurableSet_Ioi h3, integral_const_mul, kI.integral0] at h2
  have h4 : mix p a b z = c * (√(d a b) * Real.exp (b * z) / (√(2 * Real.pi) * (2 * besselKR p (d a b))) * c ^ (p - 1 / 2 - 1) *
      (2 * besselKR (p - 1 / 2) (a * √(1 + z ^ 2)))) := by
    rw [h1, h2]; field_simp
  have e1 : c ^ (p - 1 / 2 - 1) = c ^ (p - 1 / 2) / c := Real.rpow_sub_one hc0.ne' _
  have e2 : c ^ (p - 1 / 2) = d a b ^ (p - 1 / 2) * (1 + z ^ 2) ^ ((p - 1 / 2) / 2) / a ^ (p - 1 / 2) := by
    rw [hc, Real.div_rpow (by positivity) ha.le, Real.mul_rpow hd.le hz.le, Real.sqrt_eq_rpow, ← Real.rpow_mul (by positivity)]
    congr 3; ring
  have e3 : d a b ^ p = d a b ^ (p - 1 / 2) * √(d a b) := by rw [Real.sqrt_eq_rpow, ← Real.rpow_add hd]; congr 1; ring
  have hK := (kI.K_pos hd p).ne'
  have hpi : √(2 * Real.pi) ≠ 0 := (Real.sqrt_pos.2 (by have := Real.pi_pos; positivity)).ne'
  have hA : a ^ (p - 1 / 2) ≠ 0 := (Real.rpow_pos_of_pos ha _).ne'
  rw [h4, f, e1, e2, e3]
  field_simp

theorem hasMV (h : |b| < a) : HasMV (f p a b) (b / d a b * (besselKR (p + 1) (d a b) / besselKR p (d a b)))
    (besselKR (p + 1) (d a b) / besselKR p (d a b) / d a b + b ^ 2 / d a b ^ 2 * (besselKR (p + 2) (d a b) / besselKR p (d a b) -
      (besselKR (p + 1) (d a b) / besselKR p (d a b)) ^ 2)) := by
  have e : f p a b = mix p a b := funext fun z => (mix_eq h z).symm
  have hd := (d_pos h).ne'
  have m1 := gig.mom (p := p) (d_pos h) 1
  have m2 := gig.mom (p := p) (d_pos h) 2
  have h0 := mix_mom (p := p) h (fun _ => 1) measurable_const (fun z => by rw [abs_one]; nlinarith [sq_nonneg z])
  have h1 := mix_mom (p := p) h (fun z => z) measurable_id (fun z => by
    rcases abs_cases z with ⟨h1, _⟩ | ⟨h1, _⟩ <;> rw [h1] <;> nlinarith [sq_nonneg (z - 1), sq_nonneg (z + 1)])
  have h2 := mix_mom (p := p) h (fun z => z ^ 2) (by fun_prop) (fun z => by rw [abs_of_nonneg (sq_nonneg z)]; linarith)
  simp only [one_mul, (inner h _).2] at h0
  simp only [(inner1 h _).2] at h1
  simp only [(inner2 h _).2] at h2
  rw [e]
  refine ⟨h0.1, h0.2.trans (gig.int_one (d_pos h)).2, h1.1, h1.2.trans ?_, h2.1, h2.2.trans ?_⟩
  · have e1 : (fun t => gig.f p (d a b) t * (b * (t / d a b))) = fun t => b / d a b * (t ^ 1 * gig.f p (d a b) t) := funext fun t => by ring
    rw [e1, integral_const_mul, m1.2]; push_cast; ring
  · have e1 : (fun t => gig.f p (d a b) t * (t / d a b + (b * (t / d a b)) ^ 2)) =
        fun t => 1 / d a b * (t ^ 1 * gig.f p (d a b) t) + b ^ 2 / d a b ^ 2 * (t ^ 2 * gig.f p (d a b) t) := funext fun t => by ring
    rw [e1, integral_add (m1.1.const_mul _) (m2.1.const_mul _), integral_const_mul, integral_const_mul, m1.2, m2.2]; push_cast; ring

noncomputable def F (p a b z : ℝ) : ℝ := ∫ t in Iic z, f p a b t
theorem isDist (h : |b| < a) : IsDist (F p a b) (f p a b) := isDist_of_density (fun z => (f_pos h z).le) (hasMV h).int0 (hasMV h).one

end Mpsci.gh
