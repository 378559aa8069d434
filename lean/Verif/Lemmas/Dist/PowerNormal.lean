import Verif.Model.Dist.PowerNormal
import Verif.Lemmas.Dist.Normal
import Verif.Model.Fun.Powm1
import Verif.Lemmas.Fun.Powm1

namespace Mpsci.power_normal

open Classical Num common Filter Topology Set Spec

variable {c loc s : ℝ}

theorem validate_ok (hc : 0 < c) (hs : 0 < s) : validate (fin c) (fin loc) (fin s) = .ok (fin c, fin loc, fin s) := by
  simp [validate, not_le.2 hc, not_le.2 hs]
theorem validate_bad (h : ¬ (0 < c ∧ 0 < s)) : validate (fin c) (fin loc) (fin s) = .error .valueError := by
  rcases not_and_pos h with h | h
  · simp [validate, h]
  · by_cases hc : c ≤ 0 <;> simp [validate, h, hc]

noncomputable def F (c z : ℝ) : ℝ := 1 - Phi (-z) ^ c
noncomputable def f (c z : ℝ) : ℝ := c * phi z * Phi (-z) ^ (c - 1)
noncomputable def Q (c p : ℝ) : ℝ := -PhiInv ((1 - p) ^ (1 / c))

theorem f_pos (hc : 0 < c) (z : ℝ) : 0 < f c z := by
  have := phi_pos z; have := Phi_pos (-z); unfold f; positivity

theorem exp_log_Phi (c z : ℝ) : Real.exp (c * Real.log (Phi z)) = Phi z ^ c := by
  rw [Real.rpow_def_of_pos (Phi_pos _), mul_comm]

theorem cdf_eval (hc : 0 < c) (hs : 0 < s) (x : ℝ) :
    cdf (fin x) (fin c) (fin loc) (fin s) = .ok (fin (F c ((x - loc) / s))) := by
  simp [cdf, validate_ok hc hs, fin_div _ hs.ne', mp.log_pos (Phi_pos _), exp_log_Phi, F]
theorem sf_eval (hc : 0 < c) (hs : 0 < s) (x : ℝ) :
    sf (fin x) (fin c) (fin loc) (fin s) = .ok (fin (1 - F c ((x - loc) / s))) := by
  simp [sf, validate_ok hc hs, fin_div _ hs.ne', mp.log_pos (Phi_pos _), exp_log_Phi, F]
theorem pdf_eval (hc : 0 < c) (hs : 0 < s) (x : ℝ) :
    pdf (fin x) (fin c) (fin loc) (fin s) = .ok (fin (f c ((x - loc) / s) / s)) := by
  simp only [pdf, validate_ok hc hs, fin_sub, fin_div _ hs.ne', ok_bind, mp.npdf_std', neg_fin, mp.ncdf_fin, one_def, zero_def,
    mp.power_pos (Phi_pos _), fin_mul, f]
theorem logpdf_eval (hc : 0 < c) (hs : 0 < s) (x : ℝ) :
    logpdf (fin x) (fin c) (fin loc) (fin s) = .ok (fin (Real.log (f c ((x - loc) / s) / s))) := by
  simp only [logpdf, validate_ok hc hs, fin_sub, fin_div _ hs.ne', ok_bind, normal.std_logpdf, neg_fin, mp.ncdf_fin, one_def, zero_def,
    mp.log_pos (Phi_pos _), mp.log_pos hc, mp.log_pos hs, fin_mul, fin_add, pure_eq_ok, f]
  have h1 := phi_pos ((x - loc) / s)
  have h2 := Phi_pos (-((x - loc) / s))
  rw [Real.log_div (by positivity) hs.ne', Real.log_mul (by positivity) (by positivity), Real.log_mul hc.ne' h1.ne',
    Real.log_rpow h2]

theorem pdf_returns (hc : 0 < c) (hs : 0 < s) (x : ℝ) : Returns (pdf (fin x) (fin c) (fin loc) (fin s)) :=
  ⟨_, pdf_eval hc hs x⟩
theorem logpdf_returns (hc : 0 < c) (hs : 0 < s) (x : ℝ) : Returns (logpdf (fin x) (fin c) (fin loc) (fin s)) :=
  ⟨_, logpdf_eval hc hs x⟩

theorem isDist_std (hc : 0 < c) : IsDist (F c) (f c) := by
  have h : IsDist (fun y => Phi y ^ c) (fun y => c * phi y * Phi y ^ (c - 1)) := by
    refine isDist_univ (fun x => ?_) (fun x => ?_) ?_ ?_
    · exact ((hasDerivAt_Phi x).rpow_const (Or.inl (Phi_pos x).ne')).congr_deriv (by ring)
    · have := phi_pos x; have := Phi_pos x; positivity
    · have := Phi_atBot.rpow_const (p := c) (Or.inr hc.le)
      rwa [Real.zero_rpow hc.ne'] at this
    · have := Phi_atTop.rpow_const (p := c) (Or.inr hc.le)
      rwa [Real.one_rpow] at this
  have h2 := h.reflect
  simp only [phi_even] at h2
  exact h2

theorem isDist (hc : 0 < c) (hs : 0 < s) : IsDist (fun x => F c ((x - loc) / s)) (fun x => f c ((x - loc) / s) / s) :=
  (isDist_std hc).affine loc hs

theorem root_mem (hc : 0 < c) {p : ℝ} (h0 : 0 < p) (h1 : p < 1) : 0 < p ^ (1 / c) ∧ p ^ (1 / c) < 1 :=
  ⟨by positivity, Real.rpow_lt_one h0.le h1 (by positivity)⟩

theorem invsf_eval (hc : 0 < c) (hs : 0 < s) {p : ℝ} (h0 : 0 < p) (h1 : p < 1) :
    invsf (fin p) (fin c) (fin loc) (fin s) = .ok (fin (loc + s * Q c (1 - p))) := by
  obtain ⟨a, b⟩ := root_mem hc h0 h1
  have hp : mp.power (fin p) (fin (1 / c)) = .ok (fin (p ^ (1 / c))) := mp.power_pos h0 _
  simp only [invsf, validate_ok hc hs, validateP_ok h0.le h1.le, ok_bind, one_def, zero_def, fin_div _ hc.ne', hp,
    normal.std_invcdf a b, fin_mul, fin_sub, pure_eq_ok, Q, sub_sub_cancel]
  congr 2; ring
theorem invcdf_eval (hc : 0 < c) (hs : 0 < s) {p : ℝ} (h0 : 0 < p) (h1 : p < 1) :
    invcdf (fin p) (fin c) (fin loc) (fin s) = .ok (fin (loc + s * Q c p)) := by
  have h2 : 0 < 1 - p := by linarith
  obtain ⟨a, b⟩ := root_mem hc h2 (by linarith)
  have hp : mp.power (fin (1 - p)) (fin (1 / c)) = .ok (fin ((1 - p) ^ (1 / c))) := mp.power_pos h2 _
  simp only [invcdf, validate_ok hc hs, validateP_ok h0.le h1.le, ok_bind, one_def, zero_def, fin_sub, fin_div _ hc.ne', hp,
    normal.std_invcdf a b, fin_mul, pure_eq_ok, Q]
  congr 2; ring

theorem F_Q (hc : 0 < c) (_ : 0 < s) {p : ℝ} (h0 : 0 < p) (h1 : p < 1) : Q c p ∈ (univ : Set ℝ) ∧ F c (Q c p) = p := by
  have h2 : 0 < 1 - p := by linarith
  obtain ⟨a, b⟩ := root_mem hc h2 (by linarith)
  refine ⟨trivial, ?_⟩
  rw [F, Q, neg_neg, Phi_PhiInv a b, ← Real.rpow_mul h2.le, one_div_mul_cancel hc.ne', Real.rpow_one]; ring
theorem Q_F (hc : 0 < c) (_ : 0 < s) {x : ℝ} (_ : x ∈ (univ : Set ℝ)) : 0 < F c x ∧ F c x < 1 ∧ Q c (F c x) = x := by
  have h0 := Phi_pos (-x)
  have h1 : Phi (-x) ^ c < 1 := Real.rpow_lt_one h0.le (Phi_lt_one _) hc
  have h2 : 0 < Phi (-x) ^ c := by positivity
  refine ⟨by rw [F]; linarith, by rw [F]; linarith, ?_⟩
  rw [Q, F, sub_sub_cancel, ← Real.rpow_mul h0.le, mul_one_div_cancel hc.ne', Real.rpow_one, PhiInv_Phi, neg_neg]

end Mpsci.power_normal
