import Verif.Lemmas.Dist.Ncf

/-! Properties of `ncf`. -/

namespace Mpsci.ncf

open Classical Num Spec Filter Topology MeasureTheory Set

variable {n d c : ℝ}

/-- C02, C63 -/
theorem isCdf (hn : 0 < n) (hd : 0 < d) (hc : 0 < c) : IsCdf (cdf · (fin n) (fin d) (fin c)) := (isDist hn hd hc.le).isCdf (cdf_eval hn hd hc)

theorem pdf_off (hn : 0 < n) (hd : 0 < d) (hc : 0 < c) : RealFnOff (E n) (pdf · (fin n) (fin d) (fin c)) (f n d c) := fun _ hx => pdf_eval hn hd hc hx

/-- C03, C63 -/
theorem isDensity (hn : 0 < n) (hd : 0 < d) (hc : 0 < c) :
    IsDensity (E n) (Ici 0) (pdf · (fin n) (fin d) (fin c)) (cdf · (fin n) (fin d) (fin c)) :=
  (isDist hn hd hc.le).isDensity (pdf_off hn hd hc) (cdf_eval hn hd hc) fun _ hx => f_nonpos hn hd (not_le.1 hx).le

/-- C03: the density is positive inside the support that `support` reports and zero outside. -/
theorem support_spec (hn : 0 < n) (hd : 0 < d) (hc : 0 < c) : support (fin n) (fin d) (fin c) = .ok (0, pinf) ∧
    (∀ x : ℝ, x < 0 → pdf (fin x) (fin n) (fin d) (fin c) = .ok 0) ∧
    ∀ x : ℝ, 0 < x → ∃ v : ℝ, 0 < v ∧ pdf (fin x) (fin n) (fin d) (fin c) = .ok (fin v) :=
  ⟨rfl, fun x hx => pdf_neg _ _ _ hx, fun x hx => ⟨_, f_pos hn hd hc.le hx, pdf_pos hn hd hc hx⟩⟩

/-- C37, C63 -/
theorem isMean (hn : 0 < n) (hd : 2 < d) (hc : 0 < c) :
    IsMean (E n) (pdf · (fin n) (fin d) (fin c)) (mean (fin n) (fin d) (fin c)) :=
  ⟨E_finite, _, _, pdf_off hn (by linarith) hc, mean_eval hn hd, (hasM hn hd hc.le).int1, (hasM hn hd hc.le).mean⟩
/-- C37, C63: `mean` returns nan only where there is no finite mean. -/
theorem mean_nan (hn : 0 < n) (h0 : 0 < d) (hd : d ≤ 2) (hc : 0 < c) : mean (fin n) (fin d) (fin c) = .ok nan ∧
    ¬ ∃ r, IsMean (E n) (pdf · (fin n) (fin d) (fin c)) r := by
  refine ⟨by simp [mean, ofNat_def, hd], ?_⟩
  rintro ⟨r, hE, g, m, hg, _, hi, _⟩
  refine not_moment hn h0 hc.le 1 (by push_cast; linarith) 0 (hi.congr ?_)
  filter_upwards [ae_eq_of_off hE hg (pdf_off hn h0 hc)] with x hx
  rw [hx, sub_zero, pow_one]
/-- C37, C63 -/
theorem isVar (hn : 0 < n) (hd : 4 < d) (hc : 0 < c) :
    IsVar (E n) (pdf · (fin n) (fin d) (fin c)) (var (fin n) (fin d) (fin c)) :=
  (hasMV hn hd hc.le).isVar E_finite (pdf_off hn (by linarith) hc) (var_eval hn hd)
/-- C37, C63: `var` returns nan only where there is no finite variance. -/
theorem var_nan (hn : 0 < n) (h0 : 0 < d) (hd : d ≤ 4) (hc : 0 < c) : var (fin n) (fin d) (fin c) = .ok nan ∧
    ¬ ∃ r, IsVar (E n) (pdf · (fin n) (fin d) (fin c)) r := by
  refine ⟨by simp [var, ofNat_def, hd], ?_⟩
  rintro ⟨r, hE, g, m, v, hg, _, _, _, hi, _⟩
  refine not_moment hn h0 hc.le 2 (by push_cast; linarith) m (hi.congr ?_)
  filter_upwards [ae_eq_of_off hE hg (pdf_off hn h0 hc)] with x hx
  rw [hx]

/-- C12: as `nc` tends to 0 the distribution function tends to that of `f`; the mean and the variance agree with `f` at `nc = 0`. -/
theorem tendsto_f (hn : 0 < n) (hd : 0 < d) (x : ℝ) : ∃ G : ℝ → ℝ, (∀ c, 0 < c → cdf (fin x) (fin n) (fin d) (fin c) = .ok (fin (G c))) ∧
    ∃ v : ℝ, fdist.cdf (fin x) (fin n) (fin d) = .ok (fin v) ∧ Tendsto G (𝓝[>] 0) (𝓝 v) := by
  refine ⟨fun c => F n d c x, fun c hc => cdf_eval hn hd hc x, _, fdist.cdf_eval hn hd x, ?_⟩
  have hz := fun j : ℕ => bpD.isDist (nbp.aj (half_pos hn) j) (half_pos hd)
  set z := x / (d / n) with hzdef
  have hb : ∀ c : ℝ, 0 < c → |F n d c x - fdist.F n d x| ≤ 2 * (1 - Real.exp (-(c / 2))) := fun c hc => by
    have h1 := nbp.hasSum_C (half_pos hn) (half_pos hd) (half_pos hc).le z
    have h2 := (hasSum_nat_add_iff' 1).2 h1
    have h3 := (hasSum_nat_add_iff' 1).2 (ncg.hasSum_w (c / 2))
    have w0 : ncg.w (c / 2) 0 = Real.exp (-(c / 2)) := by simp [ncg.w]
    have l1 := h2.nonneg fun j => mul_nonneg (ncg.w_nonneg (half_pos hc).le (j + 1)) ((hz (j + 1)).nonneg z)
    have l2 := hasSum_le (fun j => mul_le_of_le_one_right (ncg.w_nonneg (half_pos hc).le (j + 1)) ((hz (j + 1)).le_one z)) h2 h3
    simp only [Finset.range_one, Finset.sum_singleton, Nat.cast_zero, add_zero, w0] at l1 l2
    have e1 : Real.exp (-(c / 2)) ≤ 1 := Real.exp_le_one_iff.2 (by linarith)
    have f0 := (hz 0).nonneg z
    have f1 := (hz 0).le_one z
    rw [Nat.cast_zero, add_zero] at f0 f1
    have hF : F n d c x = nbp.C (n / 2) (d / 2) (c / 2) z := rfl
    have hF2 : fdist.F n d x = bpD.F (n / 2) (d / 2) z := rfl
    rw [hF, hF2, abs_le]
    constructor <;> nlinarith
  refine tendsto_iff_norm_sub_tendsto_zero.2 (squeeze_zero' (Eventually.of_forall fun _ => norm_nonneg _) ?_ ?_ (g := fun c => 2 * (1 - Real.exp (-(c / 2)))))
  · filter_upwards [self_mem_nhdsWithin] with c hc using hb c hc
  · have : Continuous fun c : ℝ => 2 * (1 - Real.exp (-(c / 2))) := by fun_prop
    have h := this.tendsto 0
    simp only [zero_div, neg_zero, Real.exp_zero, sub_self, mul_zero] at h
    exact h.mono_left nhdsWithin_le_nhds

/-- C12: the mean and the variance agree with those of `f` for `nc = 0`. -/
theorem moments_f (hn : 0 < n) : (2 < d → mean (fin n) (fin d) 0 = fdist.mean (fin n) (fin d)) ∧ (4 < d → var (fin n) (fin d) 0 = fdist.var (fin n) (fin d)) := by
  refine ⟨fun hd => ?_, fun hd => ?_⟩
  · rw [zero_def, mean_eval hn hd, fdist.mean_eval hn hd]; congr 2; field_simp; ring
  · have h1 : d - 2 ≠ 0 := by linarith
    have h2 : d - 4 ≠ 0 := by linarith
    rw [zero_def, var_eval hn hd, fdist.var_eval hn hd]; congr 2; field_simp; ring

/-- C12 fails at `nc = 0` itself: the first term of both series is nan, since `0 * log(0)` is. -/
theorem central_fails (hn : 0 < n) (hd : 0 < d) {x : ℝ} (hx : 0 < x) :
    pdfTerm 0 (fin x) (fin n) (fin d) 0 = .ok nan ∧ cdfTerm 0 (fin x) (fin n) (fin d) 0 = .ok nan := by
  have hq : d + n * x ≠ 0 := by positivity
  have hz : 0 ≤ x / (d / n) := by positivity
  have e : n * x / (d + n * x) = bpD.u (x / (d / n)) := by
    rw [bpD.u]; field_simp
  have hg : mp.loggamma (fin (((0:ℕ):ℝ) + 1)) = .ok (fin 0) := by rw [mp.loggamma_pos (by simp)]; simp
  constructor
  · simp only [pdfTerm, zero_def, one_def, ofNat_def, Nat.cast_ofNat, fin_div _ two_ne, zero_div, ok_bind, mp.log_zero, fin_add, hg,
      fun_.logbeta_pos (half_pos hd) (nbp.aj (half_pos hn) 0), mp.log_pos hn, mp.log_pos hd, mp.log_pos hx, fin_mul, mp.log_pos (show 0 < d + n * x by positivity),
      fin_sub, fin_mul_ninf, pure_eq_ok]
    simp [scaleInf]
  · simp only [cdfTerm, zero_def, one_def, ofNat_def, Nat.cast_ofNat, fin_div _ two_ne, zero_div, ok_bind, mp.log_zero, fin_add, hg, fin_mul,
      fin_div _ hq, e, mp.betaincReg_fin (nbp.aj (half_pos hn) 0) (half_pos hd) le_rfl zero_le_one (bpD.u_nonneg hz) (bpD.u_lt_one hz).le, mp.fsum_cons, mp.fsum_nil,
      fin_mul_ninf, pure_eq_ok]
    simp [scaleInf]

/-- C07 fails: parameters outside the parameter space are not rejected. -/
theorem validates_fails : mean (fin (-1)) 3 1 = .ok (fin 0) ∧ var (fin (-1)) 6 1 = .ok (fin 9) ∧ support (fin (-1)) 3 1 = .ok (0, pinf) := by
  refine ⟨?_, ?_, rfl⟩
  · simp [mean, ofNat_def, one_def]; norm_num [fin_div]
  · simp [var, ofNat_def, one_def]; norm_num [fin_div]

/-- Non-vacuity: three and five degrees of freedom, noncentrality 2. -/
example : mean 3 5 2 = .ok (fin (25 / 9)) ∧ ∃ v : ℝ, 0 < v ∧ pdf 1 3 5 2 = .ok (fin v) := by
  constructor
  · have := mean_eval (n := 3) (d := 5) (c := 2) (by norm_num) (by norm_num)
    norm_num at this
    exact this
  · exact ⟨_, f_pos (n := 3) (d := 5) (c := 2) (by norm_num) (by norm_num) (by norm_num) one_pos, pdf_pos (by norm_num) (by norm_num) (by norm_num) one_pos⟩

end Mpsci.ncf
