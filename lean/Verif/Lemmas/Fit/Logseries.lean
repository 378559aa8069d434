import Verif.Lemmas.Fit.Counts
import Verif.Model.Fit.Logseries
import Verif.Props.Disc.Logseries
import Verif.Spec.RootFinder
import Verif.Base.PyNum
import Mathlib.Analysis.Calculus.Deriv.MeanValue

/-! The likelihood of the logarithmic series distribution. -/

namespace Mpsci.logseries

open Classical Num Spec common

variable {p m : ℝ} {ks : List ℤ} {c : Option (List ℕ)}

noncomputable def l (p : ℝ) (k : ℤ) : ℝ := k * Real.log p - Real.log k - Real.log (-Real.log (1 - p))

theorem logpmf_l (h0 : 0 < p) (h1 : p < 1) {k : ℤ} (hk : 1 ≤ k) : logpmf k (fin p) = .ok (fin (l p k)) := by
  have hL := L_pos h0 h1
  have hk' : (0:ℝ) < k := by exact_mod_cast (by omega : 0 < k)
  simp only [logpmf, validateP_ok h0.le h1.le, ok_bind, not_lt.2 hk, if_false, mp.log_pos h0, ofInt_def, mp.log_pos hk',
    neg_fin, log1p_eval h1, mp.log_pos hL, fin_mul, fin_sub, pure_eq_ok, l]

theorem allInt (hk : ∀ k ∈ ks, 1 ≤ k) : ∀ t ∈ ints ks, mp.isint t ∧ t ≥ 1 := by
  simp only [ints, List.mem_map]
  rintro _ ⟨k, hm, rfl⟩
  refine ⟨⟨k, rfl⟩, ?_⟩
  rw [ofInt_def, ge_iff, one_def, fin_le]; exact_mod_cast hk k hm

theorem nll_eval (h0 : 0 < p) (h1 : p < 1) (hk : ∀ k ∈ ks, 1 ≤ k) (hc : Matching ks c) :
    nll (ints ks) (fin p) (counts c) = .ok (fin (-((meant ks c).map (l p)).sum)) := by
  have h2 := nllCounts_meant (lp := (logpmf · (fin p))) (fun k hm => logpmf_l h0 h1 (hk k hm)) hc
  simp only [nll, validateP_ok h0.le h1.le, ok_bind, if_neg (not_not.2 (allInt hk))]
  exact h2

/-- The mean as a function of `p`. -/
noncomputable def Mn (p : ℝ) : ℝ := p / ((1 - p) * -Real.log (1 - p))

theorem hasDerivAt_L (h1 : p < 1) : HasDerivAt (fun p : ℝ => -Real.log (1 - p)) (1 / (1 - p)) p := by
  have := (((hasDerivAt_const p (1:ℝ)).sub (hasDerivAt_id p)).log (show 1 - p ≠ 0 by linarith)).neg
  refine this.congr_deriv ?_
  simp; ring

theorem strictMonoOn_Mn : StrictMonoOn Mn (Set.Ioo 0 1) := by
  have hd : ∀ p ∈ Set.Ioo (0:ℝ) 1, HasDerivAt Mn ((-Real.log (1 - p) - p) / ((1 - p) * -Real.log (1 - p)) ^ 2) p := fun p hp => by
    have hL := L_pos hp.1 hp.2
    have h2 : 0 < 1 - p := by linarith [hp.2]
    have e := (((hasDerivAt_const p (1:ℝ)).sub (hasDerivAt_id p)).mul (hasDerivAt_L hp.2))
    have e2 := (hasDerivAt_id p).div e (mul_pos h2 hL).ne'
    refine e2.congr_deriv ?_
    simp only [id, Pi.mul_apply, Pi.sub_apply]
    congr 1
    field_simp
    ring
  refine strictMonoOn_of_deriv_pos (convex_Ioo 0 1) (fun p hp => (hd p hp).continuousAt.continuousWithinAt) fun p hp => ?_
  rw [interior_Ioo] at hp
  rw [(hd p hp).deriv]
  have hL := L_pos hp.1 hp.2
  have h2 : 0 < 1 - p := by linarith [hp.2]
  have h3 := L_gt hp.1 hp.2
  exact div_pos (by linarith) (by positivity)

/-- The mean log likelihood, up to sign and a constant, has its minimum where the mean is `m`. -/
theorem min_at {p0 : ℝ} (h0 : p0 ∈ Set.Ioo (0:ℝ) 1) (hm : Mn p0 = m) {p : ℝ} (hp : p ∈ Set.Ioo (0:ℝ) 1) :
    Real.log (-Real.log (1 - p0)) - m * Real.log p0 ≤ Real.log (-Real.log (1 - p)) - m * Real.log p := by
  have hd : ∀ p ∈ Set.Ioo (0:ℝ) 1, HasDerivAt (fun p => Real.log (-Real.log (1 - p)) - m * Real.log p) ((Mn p - m) / p) p := fun p hp => by
    have hL := L_pos hp.1 hp.2
    have h2 : 0 < 1 - p := by linarith [hp.2]
    have h3 := hp.1
    refine (((hasDerivAt_L hp.2).log hL.ne').sub ((Real.hasDerivAt_log h3.ne').const_mul m)).congr_deriv ?_
    rw [Mn]
    field_simp
  have hcont : ContinuousOn (fun p => Real.log (-Real.log (1 - p)) - m * Real.log p) (Set.Ioo 0 1) :=
    fun p hp => (hd p hp).continuousAt.continuousWithinAt
  rcases le_total p p0 with h | h
  · have hsub : Set.Icc p p0 ⊆ Set.Ioo 0 1 := fun y hy => ⟨hp.1.trans_le hy.1, hy.2.trans_lt h0.2⟩
    refine antitoneOn_of_deriv_nonpos (convex_Icc p p0) (hcont.mono hsub)
      (fun y hy => (hd y (hsub (interior_subset hy))).differentiableAt.differentiableWithinAt) (fun y hy => ?_) ⟨le_rfl, h⟩ ⟨h, le_rfl⟩ h
    have hy' := hsub (interior_subset hy)
    rw [(hd y hy').deriv]
    have := strictMonoOn_Mn.monotoneOn hy' h0 (interior_subset hy).2
    exact div_nonpos_of_nonpos_of_nonneg (by linarith) hy'.1.le
  · have hsub : Set.Icc p0 p ⊆ Set.Ioo 0 1 := fun y hy => ⟨h0.1.trans_le hy.1, hy.2.trans_lt hp.2⟩
    refine monotoneOn_of_deriv_nonneg (convex_Icc p0 p) (hcont.mono hsub)
      (fun y hy => (hd y (hsub (interior_subset hy))).differentiableAt.differentiableWithinAt) (fun y hy => ?_) ⟨le_rfl, h⟩ ⟨h, le_rfl⟩ h
    have hy' := hsub (interior_subset hy)
    rw [(hd y hy').deriv]
    have := strictMonoOn_Mn.monotoneOn h0 hy' (interior_subset hy).1
    exact div_nonneg (by linarith) hy'.1.le

/-- A zero of the equation that `mle` solves is in (0, 1), if the sample mean is greater than 1. -/
theorem root_of (hm : 1 < m) {r : Num} (h : (do return (← mleFunc r) - fin m : M Num) = .ok 0) :
    ∃ p : ℝ, r = fin p ∧ p ∈ Set.Ioo (0:ℝ) 1 ∧ Mn p = m := by
  obtain ⟨v, h1, h2⟩ := ok_of_bind h
  have h2 := Except.ok.inj h2
  cases r with
  | fin p =>
    refine ⟨p, rfl, ?_⟩
    rcases lt_trichotomy p 1 with hp | rfl | hp
    · rcases eq_or_ne p 0 with rfl | hp0
      · have e1 := log1p_eval (p := 0) one_pos
        rw [sub_zero, Real.log_one, neg_zero] at e1
        simp only [mleFunc, one_def, fin_sub, neg_fin, neg_zero, e1, ok_bind, fin_mul, mul_zero, fin_div_zero] at h1
        cases h1
      · have h3 : Real.log (1 - p) ≠ 0 := by
          refine Real.log_ne_zero_of_pos_of_ne_one (by linarith) fun h => hp0 (by linarith)
        have h4 : (1 - p) * Real.log (1 - p) ≠ 0 := mul_ne_zero (by linarith) h3
        simp only [mleFunc, one_def, fin_sub, neg_fin, log1p_eval hp, ok_bind, fin_mul, fin_div _ h4] at h1
        rw [← Except.ok.inj h1, fin_sub, zero_def] at h2
        have h5 := fin.inj h2
        have h6 : Mn p = m := by
          rw [Mn, mul_neg, div_neg, ← neg_div]; linarith
        refine ⟨⟨?_, hp⟩, h6⟩
        by_contra hneg
        have hneg : p < 0 := lt_of_le_of_ne (not_lt.1 hneg) hp0
        have h7 : -p / (1 - p) ≤ Real.log (1 - p) := by
          have := Real.one_sub_inv_le_log_of_pos (show 0 < 1 - p by linarith)
          have e : 1 - (1 - p)⁻¹ = -p / (1 - p) := by
            have : 1 - p ≠ 0 := by linarith
            field_simp; ring
          rwa [e] at this
        have h8 : 0 < 1 - p := by linarith
        have h9 : 0 < Real.log (1 - p) := Real.log_pos (by linarith)
        rw [div_le_iff₀ h8] at h7
        have h10 : -p / ((1 - p) * Real.log (1 - p)) ≤ 1 := by
          rw [div_le_one (by positivity)]; linarith
        linarith
    · have e1 : mp.log1p (fin (-1)) = .ok ninf := by simp [mp.log1p, mp.log_zero]
      simp only [mleFunc, one_def, fin_sub, neg_fin, e1, ok_bind, sub_self, fin_mul_ninf] at h1
      have e2 : scaleInf 0 ninf pinf = nan := by simp [scaleInf]
      rw [e2] at h1
      rw [← Except.ok.inj h1] at h2
      exact absurd h2 (by simp [zero_def])
    · simp only [mleFunc, one_def, fin_sub, neg_fin, mp.log1p_neg (show -p < -1 by linarith)] at h1
      cases h1
  | pinf => cases h1
  | ninf =>
    rw [← Except.ok.inj (show Except.ok nan = .ok v from h1)] at h2
    exact absurd h2 (by simp [zero_def])
  | nan =>
    rw [← Except.ok.inj (show Except.ok nan = .ok v from h1)] at h2
    exact absurd h2 (by simp [zero_def])

end Mpsci.logseries
