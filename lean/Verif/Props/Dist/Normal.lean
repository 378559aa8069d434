import Verif.Lemmas.Dist.Normal

/-! Properties of `normal`. -/

namespace Mpsci.normal

open Classical Num Spec common Filter Topology Set 

variable {loc s : ℝ}

/-- C01 -/
theorem complementary (hs : 0 < s) : Complementary (cdf · (fin loc) (fin s)) (sf · (fin loc) (fin s)) :=
  complementary_of (cdf_eval hs) (sf_eval hs)

/-- C02 -/
theorem isCdf (hs : 0 < s) : IsCdf (cdf · (fin loc) (fin s)) := (isDist hs).isCdf (cdf_eval hs)

/-- C03 -/
theorem isDensity (hs : 0 < s) : IsDensity ∅ univ (pdf · (fin loc) (fin s)) (cdf · (fin loc) (fin s)) :=
  (isDist hs).isDensity (fun x hx => pdf_eval hs x) (cdf_eval hs) (by simp)

/-- C05 -/
theorem inverts_cdf (hs : 0 < s) : Inverts univ (cdf · (fin loc) (fin s)) (invcdf · (fin loc) (fin s)) :=
  inverts_affine hs (fun x _ => cdf_eval hs x) (fun _ => invcdf_eval hs) (fun _ => F_Q hs) (fun _ => Q_F hs)

/-- C05 -/
theorem inverts_sf (hs : 0 < s) : Inverts univ (sf · (fin loc) (fin s)) (invsf · (fin loc) (fin s)) :=
  inverts_affine_compl hs (fun x _ => sf_eval hs x) (fun _ => invsf_eval hs) (fun _ => F_Q hs) (fun _ => Q_F hs)

/-- C06 -/
theorem rejects_p : RejectsBadP (invcdf · (fin loc) (fin s)) ∧ RejectsBadP (invsf · (fin loc) (fin s)) := by
  constructor <;> intro p hp <;> simp [invcdf, invsf, validateP_bad hp]

/-- C07 -/
theorem validates (x : ℝ) :
    ValidatesExactly (0 < s) (cdf (fin x) (fin loc) (fin s)) ∧
    ValidatesExactly (0 < s) (sf (fin x) (fin loc) (fin s)) ∧
    ValidatesExactly (0 < s) (pdf (fin x) (fin loc) (fin s)) ∧
    ValidatesExactly (0 < s) (logpdf (fin x) (fin loc) (fin s)) := by
  refine ⟨⟨fun h => ⟨_, cdf_eval h x⟩, fun h => ?_⟩, ⟨fun h => ⟨_, sf_eval h x⟩, fun h => ?_⟩,
    ⟨fun h => pdf_returns h x, fun h => ?_⟩, ⟨fun h => logpdf_returns h x, fun h => ?_⟩⟩ <;>
  simp [cdf, sf, pdf, logpdf, validateLocScale_bad _ (not_lt.1 h)]

/-- C08 -/
theorem locScale : LocScaleInvariant (cdf · · ·) ∧ LocScaleInvariant (sf · · ·) ∧ LocScaleDensity (pdf · · ·) :=
  ⟨locScale_of_std fun x _ _ hs => cdf_eval hs x,
   locScale_of_std (G := fun z => 1 - Phi z) fun x _ _ hs => sf_eval hs x,
   locScaleDensity_of_std fun x _ _ hs => pdf_eval hs x⟩

/-- C04 -/
theorem isLogOf (hs : 0 < s) : IsLogOf ∅ (pdf · (fin loc) (fin s)) (logpdf · (fin loc) (fin s)) :=
  isLogOf_pos (fun x _ => div_pos (phi_pos _) hs) (fun x _ => pdf_eval hs x) (fun x _ => logpdf_eval hs x)

/-- C09 -/
theorem isMode (hs : 0 < s) : IsMode ∅ (pdf · (fin loc) (fin s)) (mode (fin loc) (fin s)) :=
  isMode_of (m := loc) (by simp [mode, validateLocScale_ok _ hs]) (fun x _ => pdf_eval hs x) (by simp) fun y _ => by
    rw [sub_self, zero_div]; exact div_le_div_of_nonneg_right (phi_le _) hs.le

/-- C10 -/
theorem isMedian (hs : 0 < s) : IsMedian (cdf · (fin loc) (fin s)) (median (fin loc) (fin s)) :=
  ⟨loc, by simp [median, validateLocScale_ok _ hs], (cdf_eval hs loc).trans (by rw [sub_self, zero_div, Phi_zero])⟩

/-- C11 -/
theorem symmetric (hs : 0 < s) (x : ℝ) :
    sf (fin (loc + x)) (fin loc) (fin s) = cdf (fin (loc - x)) (fin loc) (fin s) ∧
    pdf (fin (loc + x)) (fin loc) (fin s) = pdf (fin (loc - x)) (fin loc) (fin s) := by
  have : (loc - x - loc) / s = -((loc + x - loc) / s) := by ring
  rw [cdf_eval hs, sf_eval hs, pdf_eval hs, pdf_eval hs, this, Phi_neg, phi_even]
  exact ⟨rfl, rfl⟩

/-- C37 -/
theorem isMean (hs : 0 < s) : IsMean ∅ (pdf · (fin loc) (fin s)) (mean (fin loc) (fin s)) :=
  (hasMV_std.affine loc hs).isMean finite_empty (fun x _ => pdf_eval hs x) (by simp [mean, validateLocScale_ok _ hs])

/-- C37 -/
theorem isEntropy (hs : 0 < s) : IsEntropy ∅ (pdf · (fin loc) (fin s)) (entropy (fin loc) (fin s)) := by
  refine (hasEnt_phi.affine loc hs fun x => (phi_pos x).le).isEntropy finite_empty (fun x _ => pdf_eval hs x) ?_
  have h1 : 0 < 2 * Real.pi := by have := Real.pi_pos; positivity
  simp only [entropy, validateLocScale_ok _ hs, ok_bind, mp.pi_def, ofNat_def, fin_mul, mp.log_pos h1, one_def, fin_add,
    fin_div _ (two_ne_zero (α := ℝ)), mp.log_pos hs, pure_eq_ok]

/-- C41 -/
theorem endPoints (hs : 0 < s) : EndPoints (invcdf · (fin loc) (fin s)) ninf pinf ∧
    EndPoints (invsf · (fin loc) (fin s)) pinf ninf := by
  have h2 : 0 < Real.sqrt 2 * s := mul_pos (by positivity) hs
  have e1 : (2:ℝ) - 1 = 1 := by norm_num
  have e2 : (1:ℝ) - 2 = -1 := by norm_num
  refine ⟨⟨?_, ?_⟩, ⟨?_, ?_⟩⟩ <;>
  simp [invcdf, invsf, validateP_ok, validateLocScale_ok _ hs, sqrt2, scaleInf_pos h2, e1, e2]

/-- C48 -/
theorem atInfinities (hs : 0 < s) : AtInfinities (cdf · (fin loc) (fin s)) (sf · (fin loc) (fin s)) := by
  refine ⟨?_, ?_, ?_, ?_⟩ <;>
  simp [cdf, sf, mp.ncdf3, validateLocScale_ok _ hs, pinf_div_pos hs, ninf_div_pos hs]

theorem support_eq (hs : 0 < s) : support (fin loc) (fin s) = .ok (ninf, pinf) := by
  simp [support, validateLocScale_ok _ hs]

/-- C30 -/
theorem nll_spec (hs : 0 < s) : NllIsNegSum univ (logpdf · (fin loc) (fin s)) (nll · (fin loc) (fin s)) :=
  nll_of_fsum (fun x _ => logpdf_nl hs x) fun xs _ => by rw [nll, validateLocScale_ok _ hs, ok_bind]

/-- C31: the estimates are the sample mean and the square root of the sample variance. -/
theorem mle_eq {xs : List ℝ} (hn : xs ≠ []) :
    mle (xs.map fin) = .ok (fin (sampleMean xs), fin (Real.sqrt (sampleVar xs))) := mle_eval hn

/-- C31: no data, no estimate. -/
theorem mle_empty : mle [] = .error .zeroDivision := by simp [mle]

/-- C31: unless all data are equal, the estimate maximises the likelihood over all `mu` and all `sigma > 0`. -/
theorem mle_isMle {xs : List ℝ} (hn : xs ≠ []) (hv : ¬ ∃ c, ∀ x ∈ xs, x = c) : ∃ m s : ℝ,
    mle (xs.map fin) = .ok (fin m, fin s) ∧
    IsMle (fun θ : ℝ × ℝ => 0 < θ.2) (fun θ => nll (xs.map fin) (fin θ.1) (fin θ.2)) (m, s) := by
  have h0 : 0 < sampleVar xs := (sampleVar_nonneg xs).lt_of_ne' (mt (sampleVar_eq_zero hn).1 hv)
  have hs := Real.sqrt_pos.2 h0
  refine ⟨_, _, mle_eval hn, hs, _, nll_eval hs xs, fun θ hθ => ⟨_, nll_eval hθ xs, ?_⟩⟩
  exact (fin_le _ _).2 (normal_nll_min hn h0 _ _ hθ)

/-- C31: if all data are equal the estimate of `sigma` is 0, which is not admissible: `nll` raises there, and the
likelihood is unbounded. -/
theorem mle_constant {xs : List ℝ} (hn : xs ≠ []) {c : ℝ} (hc : ∀ x ∈ xs, x = c) :
    mle (xs.map fin) = .ok (fin c, 0) ∧ nll (xs.map fin) (fin c) 0 = .error .valueError := by
  have h0 : sampleVar xs = 0 := (sampleVar_eq_zero hn).2 ⟨c, hc⟩
  have hm : sampleMean xs = c := by
    obtain ⟨n, rfl⟩ : ∃ n, xs = List.replicate n c := ⟨xs.length, List.eq_replicate_of_mem hc⟩
    have : (n : ℝ) ≠ 0 := by intro h; apply hn; simp at h; simp [h]
    simp [sampleMean]; field_simp
  refine ⟨by rw [mle_eval hn, h0, hm]; simp, ?_⟩
  simp [nll, validateLocScale_bad _ (le_refl (0:ℝ))]

/-- The documented default of `nll` is the standard normal distribution's `mu = 0`; the code has `mu = 1`. -/
theorem nll_default : nll [0] = nll [0] 1 1 := rfl

/-- Non-vacuity: `loc = 2`, `scale = 3` is admissible; `cdf(2) = 1/2`; the data 1, 3 are not all equal. -/
example : cdf (fin 2) (fin 2) (fin 3) = .ok (fin (1 / 2)) ∧ ¬ ∃ c : ℝ, ∀ x ∈ [(1:ℝ), 3], x = c := by
  refine ⟨?_, ?_⟩
  · rw [cdf_eval (by norm_num)]; simp [Phi_zero]
  · rintro ⟨c, hc⟩
    have h1 := hc 1 (by simp)
    have h2 := hc 3 (by simp)
    linarith

end Mpsci.normal
