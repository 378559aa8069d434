import Verif.Lemmas.DensityDist
import Verif.Lemmas.GammaDist
import Verif.Lemmas.BesselR
import Mathlib.MeasureTheory.Function.JacobianOneDim

/-! Mixtures, and the noncentral gamma distribution: a mixture of gamma distributions with Poisson weights.  The noncentral chi-square, Rice and
noncentral chi distributions are its images. -/

namespace Mpsci

open Classical Num Filter Topology MeasureTheory Set

/-- The integral of a series of nonnegative functions. -/
theorem integral_mix {f : ℕ → ℝ → ℝ} {g : ℝ → ℝ} {S : ℝ} (hf : ∀ j, Integrable (f j)) (h0 : ∀ j x, 0 ≤ f j x)
    (hs : HasSum (fun j => ∫ x, f j x) S) (hg : ∀ᵐ x, HasSum (fun j => f j x) (g x)) : Integrable g ∧ ∫ x, g x = S := by
  have hn : Summable fun j => ∫ x, ‖f j x‖ := by
    refine hs.summable.congr fun j => ?_
    simp only [Real.norm_eq_abs, abs_of_nonneg (h0 j _)]
  have h := hasSum_integral_of_summable_integral_norm hf hn
  have hge : (fun x => ∑' j, f j x) =ᵐ[volume] g := hg.mono fun x hx => hx.tsum_eq
  have hmeas : AEStronglyMeasurable g := by
    refine aestronglyMeasurable_of_tendsto_ae atTop (f := fun N x => ∑ j ∈ Finset.range N, f j x) (fun N => ?_) (hg.mono fun x hx => hx.tendsto_sum_nat)
    exact Finset.aestronglyMeasurable_fun_sum _ fun j _ => (hf j).aestronglyMeasurable
  refine ⟨⟨hmeas, ?_⟩, ?_⟩
  · rw [hasFiniteIntegral_iff_norm]
    have e : ∫⁻ x, ENNReal.ofReal ‖g x‖ = ∑' j, ∫⁻ x, ENNReal.ofReal (f j x) := by
      rw [← lintegral_tsum fun j => (hf j).aestronglyMeasurable.aemeasurable.ennreal_ofReal]
      refine lintegral_congr_ae (hg.mono fun x hx => ?_)
      simp only
      rw [Real.norm_of_nonneg (hx.nonneg fun j => h0 j x), ← hx.tsum_eq, ENNReal.ofReal_tsum_of_nonneg (fun j => h0 j x) hx.summable]
    rw [e]
    simp only [← ofReal_integral_eq_lintegral_ofReal (hf _) (Eventually.of_forall (h0 _))]
    rw [← ENNReal.ofReal_tsum_of_nonneg (fun j => integral_nonneg (h0 j)) hs.summable]
    exact ENNReal.ofReal_lt_top
  · rw [← integral_congr_ae hge]
    exact h.unique hs

namespace ncg

/-- Poisson weights -/
noncomputable def w (l : ℝ) (j : ℕ) : ℝ := Real.exp (-l) * l ^ j / j.factorial

variable {s l : ℝ}

theorem w_nonneg (hl : 0 ≤ l) (j : ℕ) : 0 ≤ w l j := by unfold w; positivity
theorem hasSum_w (l : ℝ) : HasSum (w l) 1 := by
  have e : HasSum (fun k : ℕ => l ^ k / k.factorial) (Real.exp l) := by
    rw [Real.exp_eq_exp_ℝ]; exact NormedSpace.expSeries_div_hasSum_exp l
  have h := e.mul_left (Real.exp (-l))
  rw [← Real.exp_add, neg_add_cancel, Real.exp_zero] at h
  exact h.congr_fun' fun k => by rw [w]; ring
theorem w_succ (l : ℝ) (j : ℕ) : w l (j + 1) * (j + 1) = l * w l j := by
  have : (j.factorial : ℝ) ≠ 0 := by exact_mod_cast j.factorial_ne_zero
  rw [w, w, Nat.factorial_succ, pow_succ]; push_cast; field_simp
/-- shifting a weighted sum -/
theorem hasSum_shift {c : ℕ → ℝ} {A : ℝ} (l : ℝ) (h : HasSum (fun j => w l j * c (j + 1)) A) : HasSum (fun j => w l j * (j * c j)) (l * A) := by
  refine (hasSum_nat_add_iff' 1).1 ?_
  simp only [Finset.range_one, Finset.sum_singleton, Nat.cast_zero, zero_mul, mul_zero, sub_zero]
  refine (h.mul_left l).congr_fun' fun j => ?_
  push_cast
  linear_combination c (j + 1) * w_succ l j
theorem hasSum_w1 (l : ℝ) : HasSum (fun j => w l j * j) l := by
  have := hasSum_shift (c := fun _ => 1) l (by simpa using hasSum_w l)
  simpa using this
theorem hasSum_w2 (l : ℝ) : HasSum (fun j => w l j * (j * j)) (l * (l + 1)) := by
  refine hasSum_shift (c := fun j => (j:ℝ)) l ?_
  refine ((hasSum_w1 l).add (hasSum_w l)).congr_fun' fun j => ?_
  push_cast; ring

/-- density -/
noncomputable def p (s l y : ℝ) : ℝ := if y ≤ 0 then 0 else Real.exp (-l - y) * y ^ (s - 1) * wrightR 1 s (l * y)

theorem p_nonpos {y : ℝ} (h : y ≤ 0) : p s l y = 0 := if_pos h
theorem p_pos' {y : ℝ} (h : 0 < y) : p s l y = Real.exp (-l - y) * y ^ (s - 1) * wrightR 1 s (l * y) := if_neg (not_le.2 h)

theorem hasSum_p (s l : ℝ) {y : ℝ} (hy : 0 < y) : HasSum (fun j : ℕ => w l j * gammaD.f (s + j) y) (p s l y) := by
  rw [p_pos' hy]
  refine ((Mpsci.hasSum_w s (l * y)).mul_left (Real.exp (-l - y) * y ^ (s - 1))).congr_fun' fun j => ?_
  rw [gammaD.f_of_nonneg hy.le, gammaD.g, w, show s + j - 1 = (s - 1) + j by ring, Real.rpow_add hy, Real.rpow_natCast, show -l - y = -l + -y by ring,
    Real.exp_add, mul_pow, add_comm s]
  ring

theorem p_nonneg (hs : 0 < s) (hl : 0 ≤ l) (y : ℝ) : 0 ≤ p s l y := by
  rcases le_or_gt y 0 with h | h
  · exact (p_nonpos h).ge
  · exact (hasSum_p s l h).nonneg fun j => mul_nonneg (w_nonneg hl j) (gammaD.f_nonneg (by positivity) y)
theorem p_pos (hs : 0 < s) (hl : 0 ≤ l) {y : ℝ} (hy : 0 < y) : 0 < p s l y := by
  have h := hasSum_p s l hy
  have h0 : 0 < w l 0 * gammaD.f (s + (0:ℕ)) y := by
    have : 0 < w l 0 := by simp only [w, pow_zero, Nat.factorial_zero, Nat.cast_one, mul_one, div_one]; exact Real.exp_pos _
    rw [Nat.cast_zero, add_zero, gammaD.f_of_nonneg hy.le]
    exact mul_pos this (gammaD.g_pos hs hy)
  exact h0.trans_le (le_hasSum h 0 fun j _ => mul_nonneg (w_nonneg hl j) (gammaD.f_nonneg (by positivity) y))

/-- real moments of the gamma distribution -/
theorem gamma_moment (hs : 0 < s) {q : ℝ} (hq : 0 < s + q) : Integrable (fun y => |y| ^ q * gammaD.f s y) ∧
    ∫ y, |y| ^ q * gammaD.f s y = Real.Gamma (s + q) / Real.Gamma s := by
  have hG := gammaD.Gpos hs
  have hz : ∀ y : ℝ, y < 0 → |y| ^ q * gammaD.f s y = 0 := fun y hy => by rw [gammaD.f_neg hy, mul_zero]
  have e : ∀ y ∈ Ioi (0:ℝ), |y| ^ q * gammaD.f s y = (y ^ (s + q - 1) * Real.exp (-y)) / Real.Gamma s := fun y hy => by
    have hy' : (0:ℝ) < y := hy
    rw [gammaD.f_of_nonneg hy'.le, gammaD.g, abs_of_pos hy', show s + q - 1 = q + (s - 1) by ring, Real.rpow_add hy']; ring
  constructor
  · refine integrable_of_Ioi hz ?_
    exact MeasureTheory.IntegrableOn.congr_fun ((gammaD.intOn hq).div_const _) (fun y hy => (e y hy).symm) measurableSet_Ioi
  · rw [integral_Ioi_of_zero hz, setIntegral_congr_fun measurableSet_Ioi e, integral_div, gammaD.int_eq hq]

/-- real moments -/
theorem moment (hs : 0 < s) (hl : 0 ≤ l) {q S : ℝ} (hq : 0 < s + q) (h : HasSum (fun j : ℕ => w l j * (Real.Gamma (s + j + q) / Real.Gamma (s + j))) S) :
    Integrable (fun y => |y| ^ q * p s l y) ∧ ∫ y, |y| ^ q * p s l y = S := by
  have hm : ∀ j : ℕ, Integrable (fun y => |y| ^ q * gammaD.f (s + j) y) ∧ _ := fun j => gamma_moment (s := s + j) (by positivity) (q := q)
    (by have : (0:ℝ) ≤ j := j.cast_nonneg; linarith)
  refine integral_mix (f := fun j y => w l j * (|y| ^ q * gammaD.f (s + j) y)) (fun j => (hm j).1.const_mul _)
    (fun j y => mul_nonneg (w_nonneg hl j) (mul_nonneg (by positivity) (gammaD.f_nonneg (by positivity) y))) ?_ ?_
  · refine h.congr_fun' fun j => ?_
    rw [integral_const_mul (w l j), (hm j).2]
  · have : ∀ᵐ y : ℝ, y ≠ 0 := by simp [ae_iff, measure_singleton]
    filter_upwards [this] with y hy
    rcases lt_or_gt_of_ne hy with h | h
    · simp only [gammaD.f_neg h, p_nonpos h.le, mul_zero]; exact hasSum_zero
    · exact ((hasSum_p s l h).mul_left (|y| ^ q)).congr_fun' fun j => by ring

theorem int_p (hs : 0 < s) (hl : 0 ≤ l) : Integrable (p s l) ∧ ∫ y, p s l y = 1 := by
  have h := moment hs hl (q := 0) (by linarith) (S := 1) ((hasSum_w l).congr_fun' fun j => by
    rw [add_zero, div_self (gammaD.Gpos (by positivity)).ne', mul_one])
  simpa using h

/-- distribution function -/
noncomputable def C (s l y : ℝ) : ℝ := ∫ t in Iic y, p s l t

theorem isDist (hs : 0 < s) (hl : 0 ≤ l) : IsDist (C s l) (p s l) := isDist_of_density (p_nonneg hs hl) (int_p hs hl).1 (int_p hs hl).2

theorem C_nonpos {y : ℝ} (h : y ≤ 0) : C s l y = 0 := by
  rw [C, setIntegral_congr_fun (g := fun _ => (0:ℝ)) measurableSet_Iic fun t ht => p_nonpos (le_trans ht h)]; simp

theorem p_zero_l {y : ℝ} (hy : 0 < y) : p s 0 y = gammaD.f s y := by
  rw [p_pos' hy, zero_mul, wrightR, tsum_eq_single 0 fun k hk => by simp [hk], gammaD.f_of_nonneg hy.le, gammaD.g]
  simp; ring
theorem C_zero_l (hs : 0 < s) (y : ℝ) : C s 0 y = gammaD.F s y := by
  rw [C, ← (gammaD.isDist hs).integral_Iic y]
  refine setIntegral_congr_ae measurableSet_Iic ?_
  have : ∀ᵐ y : ℝ, y ≠ 0 := by simp [ae_iff, measure_singleton]
  filter_upwards [this] with t ht _
  rcases lt_or_gt_of_ne ht with h | h
  · rw [p_nonpos h.le, gammaD.f_neg h]
  · exact p_zero_l h

theorem hasMV (hs : 0 < s) (hl : 0 ≤ l) : HasMV (p s l) (s + l) (s + 2 * l) := by
  have hGj : ∀ j : ℕ, 0 < s + (j:ℝ) := fun j => by positivity
  have s1 : HasSum (fun j : ℕ => w l j * (Real.Gamma (s + j + 1) / Real.Gamma (s + j))) (s + l) := by
    have h := (hasSum_w1 l).add ((hasSum_w l).mul_left s)
    rw [mul_one, add_comm] at h
    refine h.congr_fun' fun j => ?_
    rw [Real.Gamma_add_one (hGj j).ne', mul_div_cancel_right₀ _ (gammaD.Gpos (hGj j)).ne']; ring
  have s2 : HasSum (fun j : ℕ => w l j * (Real.Gamma (s + j + 2) / Real.Gamma (s + j))) (l * (l + 1) + (2 * s + 1) * l + s * (s + 1)) := by
    have h := ((hasSum_w2 l).add ((hasSum_w1 l).mul_left (2 * s + 1))).add ((hasSum_w l).mul_left (s * (s + 1)))
    rw [mul_one] at h
    refine h.congr_fun' fun j => ?_
    have : 0 < s + (j:ℝ) + 1 := by have := hGj j; linarith
    rw [show s + (j:ℝ) + 2 = s + j + 1 + 1 by ring, Real.Gamma_add_one this.ne', Real.Gamma_add_one (hGj j).ne', ← mul_assoc,
      mul_div_cancel_right₀ _ (gammaD.Gpos (hGj j)).ne']; ring
  have h1 := moment hs hl (q := 1) (by linarith) s1
  have h2 := moment hs hl (q := 2) (by linarith) s2
  have e1 : (fun y => |y| ^ (1:ℝ) * p s l y) = fun y => y * p s l y := by
    funext y
    rcases le_or_gt y 0 with h | h
    · rw [p_nonpos h, mul_zero, mul_zero]
    · rw [Real.rpow_one, abs_of_pos h]
  have e2 : (fun y => |y| ^ (2:ℝ) * p s l y) = fun y => y ^ 2 * p s l y := by
    funext y
    rw [Real.rpow_two, sq_abs]
  rw [e1] at h1
  rw [e2] at h2
  exact ⟨(int_p hs hl).1, (int_p hs hl).2, h1.1, h1.2, h2.1, by rw [h2.2]; ring⟩

end ncg

/-- Change of variables `y = x²/2`. -/
theorem sq_image {b : ℝ} (hb : 0 ≤ b) : (fun x : ℝ => x ^ 2 / 2) '' Ioi b = Ioi (b ^ 2 / 2) := by
  ext y
  simp only [mem_image, mem_Ioi]
  constructor
  · rintro ⟨x, hx, rfl⟩
    have : b ^ 2 < x ^ 2 := pow_lt_pow_left₀ hx hb two_ne_zero
    linarith
  · intro h
    have hy : 0 ≤ 2 * y := by nlinarith [sq_nonneg b]
    refine ⟨√(2 * y), Real.lt_sqrt_of_sq_lt (by linarith), ?_⟩
    rw [Real.sq_sqrt hy]; ring
theorem sq_change (g : ℝ → ℝ) {b : ℝ} (hb : 0 ≤ b) :
    (IntegrableOn g (Ioi (b ^ 2 / 2)) ↔ IntegrableOn (fun x => x * g (x ^ 2 / 2)) (Ioi b)) ∧
      ∫ y in Ioi (b ^ 2 / 2), g y = ∫ x in Ioi b, x * g (x ^ 2 / 2) := by
  have hd : ∀ x ∈ Ioi b, HasDerivWithinAt (fun x : ℝ => x ^ 2 / 2) x (Ioi b) x := fun x _ => by
    have := ((hasDerivAt_pow 2 x).div_const 2).hasDerivWithinAt (s := Ioi b)
    exact this.congr_deriv (by simp)
  have hi : InjOn (fun x : ℝ => x ^ 2 / 2) (Ioi b) := fun x hx y hy hxy => by
    have hx' : 0 ≤ x := hb.trans (le_of_lt hx)
    have hy' : 0 ≤ y := hb.trans (le_of_lt hy)
    have hxy' : x ^ 2 / 2 = y ^ 2 / 2 := hxy
    exact (pow_left_inj₀ hx' hy' two_ne_zero).1 (by linarith)
  have e : ∀ x ∈ Ioi b, |x| • g (x ^ 2 / 2) = x * g (x ^ 2 / 2) := fun x hx => by
    rw [abs_of_pos (hb.trans_lt hx), smul_eq_mul]
  rw [← sq_image hb]
  refine ⟨?_, ?_⟩
  · rw [integrableOn_image_iff_integrableOn_abs_deriv_smul measurableSet_Ioi hd hi g]
    exact integrableOn_congr_fun e measurableSet_Ioi
  · rw [integral_image_eq_integral_abs_deriv_smul measurableSet_Ioi hd hi g]
    exact setIntegral_congr_fun measurableSet_Ioi e

/-- The distribution of `√(2 Y)` -/
theorem IsDist.sqrt {F f : ℝ → ℝ} (h : IsDist F f) (h0 : F 0 = 0) :
    IsDist (fun x => if x ≤ 0 then 0 else F (x ^ 2 / 2)) (fun x => if x ≤ 0 then 0 else x * f (x ^ 2 / 2)) := by
  set d : ℝ → ℝ := fun x => if x ≤ 0 then 0 else x * f (x ^ 2 / 2) with hd
  have hde : ∀ {b : ℝ}, 0 ≤ b → ∀ x ∈ Ioi b, x * f (x ^ 2 / 2) = d x := fun {b} hb x hx => (if_neg (not_le.2 (hb.trans_lt hx))).symm
  have htail : ∀ {b : ℝ}, 0 ≤ b → ∫ x in Ioi b, d x = 1 - F (b ^ 2 / 2) := fun {b} hb => by
    rw [← h.integral_Ioi, (sq_change f hb).2]
    exact (setIntegral_congr_fun measurableSet_Ioi (hde hb)).symm
  have hneg : ∀ x : ℝ, x < 0 → d x = 0 := fun x hx => if_pos hx.le
  have hdi : Integrable d := integrable_of_Ioi hneg
    (MeasureTheory.IntegrableOn.congr_fun ((sq_change f le_rfl).1.1 h.integrable.integrableOn) (hde le_rfl) measurableSet_Ioi)
  have h1 : ∫ x, d x = 1 := by
    rw [integral_Ioi_of_zero hneg, htail le_rfl]; simp [h0]
  have hd0 : ∀ x, 0 ≤ d x := fun x => by
    simp only [hd]; split_ifs with hx
    · exact le_rfl
    · exact mul_nonneg (not_le.1 hx).le (h.f_nonneg _)
  have hD := isDist_of_density hd0 hdi h1
  have e : (fun x => ∫ t in Iic x, d t) = fun x => if x ≤ 0 then 0 else F (x ^ 2 / 2) := by
    funext x
    split_ifs with hx
    · rw [setIntegral_congr_fun (g := fun _ => (0:ℝ)) measurableSet_Iic fun t ht => if_pos (le_trans ht hx)]; simp
    · have h2 := hD.integral_Ioi x
      rw [htail (not_le.1 hx).le] at h2; linarith
  rw [e] at hD
  exact hD

end Mpsci
