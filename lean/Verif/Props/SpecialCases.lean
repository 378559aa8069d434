import Verif.Lemmas.Dist.Genextreme
import Verif.Lemmas.Dist.Gumbel
import Verif.Lemmas.Dist.Genpareto
import Verif.Lemmas.Dist.Exponweib
import Verif.Lemmas.Dist.Weibull
import Verif.Lemmas.Dist.Burr12
import Verif.Lemmas.Dist.Loglogistic
import Verif.Lemmas.Dist.GammaGompertz
import Verif.Lemmas.Dist.Benktander2
import Verif.Lemmas.Dist.Laplace
import Verif.Lemmas.Dist.Cauchy
import Verif.Lemmas.Dist.Logistic

/-!
# Special cases and symmetries

Identities between the functions of two modules, for all real arguments. mpsci has no exponential distribution, so its
density `e^{-t}/s` and distribution function are written out.
-/

namespace Mpsci.special

open Classical Num Set

/-- The exponential distribution with location `m` and scale `s`. -/
noncomputable def expCdf (m s x : ℝ) : ℝ := if x < m then 0 else 1 - Real.exp (-((x - m) / s))
noncomputable def expPdf (m s x : ℝ) : ℝ := if x < m then 0 else Real.exp (-((x - m) / s)) / s

/-- C12: `genextreme` with `xi = 0` is `gumbel_max`. -/
theorem genextreme_zero {m s : ℝ} (hs : 0 < s) (x : ℝ) :
    genextreme.cdf (fin x) 0 (fin m) (fin s) = gumbel_max.cdf (fin x) (fin m) (fin s) ∧
    genextreme.sf (fin x) 0 (fin m) (fin s) = gumbel_max.sf (fin x) (fin m) (fin s) ∧
    genextreme.pdf (fin x) 0 (fin m) (fin s) = gumbel_max.pdf (fin x) (fin m) (fin s) := by
  have hF : ∀ z, genextreme.F 0 z = gumbel_max.F z := fun z => by simp [genextreme.F, genextreme.T, gumbel_max.F]
  have hf : ∀ z, genextreme.f 0 z = gumbel_max.f z := fun z => by
    simp only [genextreme.f, genextreme.T, gumbel_max.f, zero_mul, add_zero, lt_irrefl, false_and, or_false, if_true,
      not_lt.2 (zero_le_one' ℝ), if_false, zero_add, Real.rpow_one]
    rw [← Real.exp_add]; congr 1; ring
  rw [zero_def]
  refine ⟨?_, ?_, ?_⟩
  · rw [genextreme.cdf_eval hs, gumbel_max.cdf_eval hs, hF]
  · rw [genextreme.sf_eval hs, gumbel_max.sf_eval hs, hF]
  · rw [genextreme.pdf_eval hs x (by simp [genextreme.Top]), gumbel_max.pdf_eval hs, hf]

/-- C12: `genextreme` with `xi = 0` has the quantile functions of `gumbel_max`. -/
theorem genextreme_zero_inv {m s p : ℝ} (hs : 0 < s) (h0 : 0 < p) (h1 : p < 1) :
    genextreme.invcdf (fin p) 0 (fin m) (fin s) = gumbel_max.invcdf (fin p) (fin m) (fin s) := by
  rw [zero_def, genextreme.invcdf_eval hs h0 h1, gumbel_max.invcdf_eval hs h0 h1]
  simp [genextreme.Q, gumbel_max.Q]

/-- C12: `genpareto` with `xi = 0` is the exponential distribution. -/
theorem genpareto_zero {m s : ℝ} (hs : 0 < s) (x : ℝ) :
    genpareto.cdf (fin x) 0 (fin m) (fin s) = .ok (fin (expCdf m s x)) ∧
    genpareto.sf (fin x) 0 (fin m) (fin s) = .ok (fin (1 - expCdf m s x)) ∧
    genpareto.pdf (fin x) 0 (fin m) (fin s) = .ok (fin (expPdf m s x)) := by
  have hx : (x - m) / s < 0 ↔ x < m := by rw [div_lt_iff₀ hs, zero_mul, sub_neg]
  have hF : genpareto.F 0 ((x - m) / s) = expCdf m s x := by
    simp only [genpareto.F, genpareto.G, expCdf, hx, zero_mul, add_zero, if_true, not_lt.2 (zero_le_one' ℝ), if_false]
  rw [zero_def]
  refine ⟨?_, ?_, ?_⟩
  · rw [genpareto.cdf_eval hs, hF]
  · rw [genpareto.sf_eval hs, hF]
  · rw [genpareto.pdf_eval hs x (by simp [genpareto.Top])]
    simp only [genpareto.f, genpareto.g, expPdf, hx, zero_mul, add_zero, if_true, not_lt.2 (zero_le_one' ℝ), or_false]
    by_cases h : x < m <;> simp [h]

/-- C12: `exponweib` with `a = 1` is `weibull_min`. For the densities `x ≠ 0`, since one of the two may be infinite
there. -/
theorem exponweib_one {c s : ℝ} (hc : 0 < c) (hs : 0 < s) (x : ℝ) :
    exponweib.cdf (fin x) 1 (fin c) (fin s) = weibull_min.cdf (fin x) (fin c) 0 (fin s) ∧
    exponweib.sf (fin x) 1 (fin c) (fin s) = weibull_min.sf (fin x) (fin c) 0 (fin s) ∧
    (x ≠ 0 → exponweib.pdf (fin x) 1 (fin c) (fin s) = weibull_min.pdf (fin x) (fin c) 0 (fin s)) := by
  have hF : exponweib.F 1 c (x / s) = weibull_min.F c 0 s x := by
    rcases lt_trichotomy x 0 with h | h | h
    · simp [exponweib.F, weibull_min.F, div_neg_of_neg_of_pos h hs, h.le]
    · simp [exponweib.F, exponweib.w, weibull_min.F, h, Real.zero_rpow hc.ne']
    · simp [exponweib.F, exponweib.w, weibull_min.F, (div_pos h hs).not_gt, h.not_ge]
  rw [zero_def, one_def]
  refine ⟨?_, ?_, fun hx => ?_⟩
  · rw [exponweib.cdf_eval one_pos hc hs, weibull_min.cdf_eval hc hs, hF]
  · rw [exponweib.sf_eval one_pos hc hs, weibull_min.sf_eval hc hs, hF]
  · rw [exponweib.pdf_eval one_pos hc hs x hx, weibull_min.pdf_eval hc hs (fun h => absurd h hx)]
    congr 2
    rcases lt_or_gt_of_ne hx with h | h
    · simp [exponweib.f, weibull_min.f, (div_neg_of_neg_of_pos h hs).le, h.le, hx]
    · simp [exponweib.f, weibull_min.f, (div_pos h hs).not_ge, h.not_ge]; ring

/-- C12: `burr12` with `d = 1` is `loglogistic`. -/
theorem burr12_one {c s : ℝ} (hc : 0 < c) (hs : 0 < s) (x : ℝ) :
    burr12.cdf (fin x) (fin c) 1 (fin s) = loglogistic.cdf (fin x) (fin c) (fin s) ∧
    burr12.sf (fin x) (fin c) 1 (fin s) = loglogistic.sf (fin x) (fin c) (fin s) ∧
    burr12.pdf (fin x) (fin c) 1 (fin s) = loglogistic.pdf (fin x) (fin c) (fin s) := by
  have hF : ∀ z, burr12.F c 1 z = loglogistic.F c z := fun z => by
    by_cases h : z ≤ 0
    · simp [burr12.F, loglogistic.F, h]
    · have := Real.rpow_pos_of_pos (not_le.1 h) c
      rw [burr12.F, loglogistic.F, if_neg h, if_neg h, Real.rpow_neg_one, Real.rpow_neg (not_le.1 h).le]
      field_simp; ring
  have hf : ∀ z, burr12.f c 1 z = loglogistic.f c z := fun z => by
    by_cases h : z ≤ 0
    · simp [burr12.f, loglogistic.f, h]
    · rw [burr12.f, loglogistic.f, if_neg h, if_neg h, mul_one, show (1:ℝ) + 1 = ((2:ℕ) : ℝ) by norm_num,
        Real.rpow_natCast]
  rw [one_def]
  refine ⟨?_, ?_, ?_⟩
  · rw [burr12.cdf_eval hc one_pos hs, loglogistic.cdf_eval hc hs, hF]
  · rw [burr12.sf_eval hc one_pos hs, loglogistic.sf_eval hc hs, hF]
  · rw [burr12.pdf_eval hc one_pos hs, loglogistic.pdf_eval hc hs, hf]

/-- C12: `gamma_gompertz` with `beta = 1` is the exponential distribution of scale `scale/c`. -/
theorem gamma_gompertz_one {c s : ℝ} (hc : 0 < c) (hs : 0 < s) (x : ℝ) :
    gamma_gompertz.cdf (fin x) (fin c) 1 (fin s) = .ok (fin (expCdf 0 (s / c) x)) ∧
    gamma_gompertz.sf (fin x) (fin c) 1 (fin s) = .ok (fin (1 - expCdf 0 (s / c) x)) ∧
    gamma_gompertz.pdf (fin x) (fin c) 1 (fin s) = .ok (fin (expPdf 0 (s / c) x)) := by
  have hx : x / s < 0 ↔ x < 0 := by rw [div_lt_iff₀ hs, zero_mul]
  have hF : gamma_gompertz.F c 1 (x / s) = expCdf 0 (s / c) x := by
    simp only [gamma_gompertz.F, expCdf, hx, sub_self, zero_add, sub_zero, one_div, ← Real.exp_neg, ← Real.exp_mul]
    congr 3; field_simp
  have hf : gamma_gompertz.f c 1 (x / s) / s = expPdf 0 (s / c) x := by
    simp only [gamma_gompertz.f, expPdf, hx, sub_self, zero_add, sub_zero, Real.one_rpow, mul_one, ← Real.exp_mul]
    by_cases h : x < 0
    · simp [h]
    · rw [if_neg h, if_neg h, mul_div_assoc, ← Real.exp_sub]
      have : x / s - x / s * (c + 1) = -(x / (s / c)) := by field_simp; ring
      rw [this]; field_simp
  rw [one_def]
  refine ⟨?_, ?_, ?_⟩
  · rw [gamma_gompertz.cdf_eval hc one_pos hs, hF]
  · rw [gamma_gompertz.sf_eval hc one_pos hs, hF]
  · rw [gamma_gompertz.pdf_eval hc one_pos hs, hf]

/-- C12: `benktander2` with `b = 1` is the exponential distribution of scale `1/a` shifted to 1. -/
theorem benktander2_one {a : ℝ} (ha : 0 < a) (x : ℝ) :
    benktander2.cdf (fin x) (fin a) 1 = .ok (fin (expCdf 1 (1 / a) x)) ∧
    benktander2.sf (fin x) (fin a) 1 = .ok (fin (1 - expCdf 1 (1 / a) x)) ∧
    benktander2.pdf (fin x) (fin a) 1 = .ok (fin (expPdf 1 (1 / a) x)) := by
  have hv : benktander2.Valid a 1 := ⟨ha, one_pos, le_rfl⟩
  have he : benktander2.e a 1 x = Real.exp (-((x - 1) / (1 / a))) := by
    simp only [benktander2.e, div_one, Real.rpow_one]; congr 1; field_simp
  have hF : benktander2.F a 1 x = expCdf 1 (1 / a) x := by
    simp only [benktander2.F, benktander2.S, expCdf, he, sub_self, Real.rpow_zero, one_mul]
  rw [one_def]
  refine ⟨?_, ?_, ?_⟩
  · rw [benktander2.cdf_eval hv, hF]
  · rw [benktander2.sf_eval hv, hF]
  · rw [benktander2.pdf_eval hv]
    by_cases h : x < 1
    · simp [benktander2.f, expPdf, h]
    · have hx : 0 < x := by linarith
      simp only [benktander2.f, expPdf, if_neg h, benktander2.k, he, Real.rpow_one]
      rw [show (1:ℝ) - 2 = -1 by norm_num, Real.rpow_neg_one]
      congr 2; field_simp; ring

/-- Non-vacuity of the formulas: the exponential cdf at the location plus `log 2` scales is one half. -/
example : expCdf 1 2 (1 + 2 * Real.log 2) = 1 / 2 := by
  have : ¬ (1 + 2 * Real.log 2 < 1) := by have := Real.log_pos one_lt_two; linarith
  rw [expCdf, if_neg this, add_sub_cancel_left, mul_div_cancel_left₀ _ two_ne_zero, Real.exp_neg,
    Real.exp_log two_pos]; norm_num

/-- C11 -/
theorem logistic_symmetric {loc s : ℝ} (hs : 0 < s) (x : ℝ) :
    logistic.sf (fin (loc + x)) (fin loc) (fin s) = logistic.cdf (fin (loc - x)) (fin loc) (fin s) := by
  rw [logistic.cdf_eval hs, logistic.sf_eval hs]
  have : (loc - x - loc) / s = -((loc + x - loc) / s) := by ring
  rw [this, logistic.F_neg]

/-- C11 -/
theorem cauchy_symmetric {loc s : ℝ} (hs : 0 < s) (x : ℝ) :
    cauchy.sf (fin (loc + x)) (fin loc) (fin s) = cauchy.cdf (fin (loc - x)) (fin loc) (fin s) ∧
    cauchy.pdf (fin (loc + x)) (fin loc) (fin s) = cauchy.pdf (fin (loc - x)) (fin loc) (fin s) := by
  have : (loc - x - loc) / s = -((loc + x - loc) / s) := by ring
  rw [cauchy.cdf_eval hs, cauchy.sf_eval hs, cauchy.pdf_eval hs, cauchy.pdf_eval hs, this]
  simp only [cauchy.F, cauchy.f, Real.arctan_neg, neg_sq, and_true]
  congr 2; ring

/-- C11 -/
theorem laplace_symmetric {loc s : ℝ} (hs : 0 < s) (x : ℝ) :
    laplace.sf (fin (loc + x)) (fin loc) (fin s) = laplace.cdf (fin (loc - x)) (fin loc) (fin s) ∧
    laplace.pdf (fin (loc + x)) (fin loc) (fin s) = laplace.pdf (fin (loc - x)) (fin loc) (fin s) := by
  have : (loc - x - loc) / s = -((loc + x - loc) / s) := by ring
  rw [laplace.cdf_eval hs, laplace.sf_eval hs, laplace.pdf_eval hs, laplace.pdf_eval hs, this]
  simp only [laplace.F, laplace.f, abs_neg, and_true]
  congr 2
  generalize (loc + x - loc) / s = z
  rcases lt_trichotomy z 0 with h | h | h
  · simp [h.le, not_le.2 h]
  · simp [h]; norm_num
  · simp [h.le, not_le.2 h]

end Mpsci.special
