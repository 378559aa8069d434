import Verif.Model.Dist.Lognormal
import Verif.Lemmas.Common
import Verif.Lemmas.Helpers
import Verif.Lemmas.NormalDist
import Verif.Lemmas.NormalMle
import Verif.Lemmas.Fit
import Verif.Lemmas.Shape
import Verif.Lemmas.Dist.Normal

namespace Mpsci.lognormal

open Classical Num common Filter Topology Set Spec

variable {m s : ℝ}

theorem validate_ok (hs : 0 < s) (m : Num) : validate m (fin s) = .ok (m, fin s) := by simp [validate, not_le.2 hs]
theorem validate_bad (hs : ¬ 0 < s) (m : Num) : validate m (fin s) = .error .valueError := by
  simp [validate, not_lt.1 hs]

noncomputable def F (m s x : ℝ) : ℝ := if x ≤ 0 then 0 else Phi ((Real.log x - m) / s)
noncomputable def f (m s x : ℝ) : ℝ := if x ≤ 0 then 0 else phi ((Real.log x - m) / s) / s / x

theorem f_zero {x : ℝ} (hx : x ≤ 0) : f m s x = 0 := if_pos hx
theorem f_pos (hs : 0 < s) {x : ℝ} (hx : 0 < x) : 0 < f m s x := by
  rw [f, if_neg (not_le.2 hx)]; have := phi_pos ((Real.log x - m) / s); positivity

theorem cdf_eval (hs : 0 < s) (x : ℝ) : cdf (fin x) (fin m) (fin s) = .ok (fin (F m s x)) := by
  rcases le_or_gt x 0 with hx | hx
  · simp [cdf, validate_ok hs, hx, F]
  · simp [cdf, validate_ok hs, not_le.2 hx, F, mp.log_pos hx, mp.ncdf3_fin hs]
theorem sf_eval (hs : 0 < s) {x : ℝ} (hx : 0 < x) : sf (fin x) (fin m) (fin s) = .ok (fin (1 - F m s x)) := by
  have e : (-Real.log x - -m) / s = -((Real.log x - m) / s) := by ring
  simp only [sf, validate_ok hs, ok_bind, zero_def, fin_le, not_le.2 hx, if_false, F, mp.log_pos hx, neg_fin,
    mp.ncdf3_fin hs, e, Phi_neg]
theorem sf_left (hs : 0 < s) {x : ℝ} (hx : x ≤ 0) : sf (fin x) (fin m) (fin s) = .error .attributeError := by
  simp [sf, validate_ok hs, hx]
theorem pdf_eval (hs : 0 < s) (x : ℝ) : pdf (fin x) (fin m) (fin s) = .ok (fin (f m s x)) := by
  rcases le_or_gt x 0 with hx | hx
  · simp [pdf, validate_ok hs, hx, f]
  · simp [pdf, validate_ok hs, not_le.2 hx, f, mp.log_pos hx, mp.npdf_fin hs, fin_div _ hx.ne']

/-- minus the logarithm of the density -/
theorem logpdf_nl (hs : 0 < s) {x : ℝ} (hx : 0 < x) :
    logpdf (fin x) (fin m) (fin s) = .ok (fin (-(normal.nl m s (Real.log x) + Real.log x))) := by
  have h1 : 0 < 2 * Real.pi := by have := Real.pi_pos; positivity
  have h2 : 2 * (s * s) ≠ 0 := by positivity
  simp only [logpdf, validate_ok hs, ok_bind, zero_def, fin_le, not_le.2 hx, if_false, mp.pi_def, ofNat_def, fin_mul,
    mp.log_pos h1, mp.log_pos hx, neg_fin, mp.log_pos hs, fin_sub, fin_add, fin_div _ h2, pure_eq_ok, normal.nl]
  congr 2; rw [← pow_two, ← pow_two]; ring
theorem logpdf_left (hs : 0 < s) {x : ℝ} (hx : x ≤ 0) : logpdf (fin x) (fin m) (fin s) = .ok ninf := by
  simp [logpdf, validate_ok hs, hx]
theorem nl_eq (hs : 0 < s) {x : ℝ} (hx : 0 < x) :
    -(normal.nl m s (Real.log x) + Real.log x) = Real.log (f m s x) := by
  rw [f, if_neg (not_le.2 hx), Real.log_div (div_pos (phi_pos _) hs).ne' hx.ne', ← normal.nl_eq hs]; ring

theorem logpdf_returns (hs : 0 < s) (x : ℝ) : Returns (logpdf (fin x) (fin m) (fin s)) := by
  rcases le_or_gt x 0 with hx | hx
  exacts [⟨_, logpdf_left hs hx⟩, ⟨_, logpdf_nl hs hx⟩]

theorem isDist (hs : 0 < s) : IsDist (F m s) (f m s) := by
  refine isDist_Ioi (G := F m s) (a := 0) (fun x hx => if_pos hx) (fun _ _ => rfl) (if_pos le_rfl) ?_
    (fun x hx => f_zero hx.le) (f_zero le_rfl).ge (fun x hx => ?_) (fun x hx => (f_pos hs hx).le) ?_
  · have h : Tendsto (fun x => Phi ((Real.log x - m) / s)) (𝓝[>] 0) (𝓝 0) :=
      Phi_atBot.comp ((tendsto_atBot_add_const_right _ (-m) Real.tendsto_log_nhdsGT_zero).atBot_div_const hs)
    rw [← Ioi_insert, continuousWithinAt_insert_self, ContinuousWithinAt]
    rw [show F m s 0 = 0 from if_pos le_rfl]
    exact h.congr' (by filter_upwards [self_mem_nhdsWithin] with x hx using (if_neg (not_le.2 hx)).symm)
  · have h := (hasDerivAt_Phi ((Real.log x - m) / s)).comp x
      (((Real.hasDerivAt_log hx.ne').sub_const m).div_const s)
    have e : f m s x = phi ((Real.log x - m) / s) * (x⁻¹ / s) := by
      rw [f, if_neg (not_le.2 hx)]; field_simp
    rw [e]
    refine h.congr_of_eventuallyEq ?_
    filter_upwards [Ioi_mem_nhds hx] with y hy using if_neg (not_le.2 hy)
  · have h : Tendsto (fun x => Phi ((Real.log x - m) / s)) atTop (𝓝 1) :=
      Phi_atTop.comp ((tendsto_atTop_add_const_right _ (-m) Real.tendsto_log_atTop).atTop_div_const hs)
    exact h.congr' (by filter_upwards [eventually_gt_atTop 0] with x hx using (if_neg (not_le.2 hx)).symm)

noncomputable def Q (m s p : ℝ) : ℝ := Real.exp (m + s * PhiInv p)

theorem invcdf_eval (hs : 0 < s) {p : ℝ} (h0 : 0 < p) (h1 : p < 1) :
    invcdf (fin p) (fin m) (fin s) = .ok (fin (Q m s p)) := by
  have h2 : Real.sqrt 2 ≠ 0 := by positivity
  simp only [invcdf, validateP_ok h0.le h1.le, validate_ok hs, ok_bind, ofNat_def, fin_mul, one_def, fin_sub,
    mp.erfinv_PhiInv h0 h1, normal.sqrt2, fin_add, pure_eq_ok, mp.exp_fin, Q]
  congr 3; field_simp; ring
theorem invsf_eval (hs : 0 < s) {p : ℝ} (h0 : 0 < p) (h1 : p < 1) :
    invsf (fin p) (fin m) (fin s) = .ok (fin (Q m s (1 - p))) := by
  simp only [invsf, validateP_ok h0.le h1.le, validate_ok hs, ok_bind, one_def, fin_sub,
    invcdf_eval hs (show 0 < 1 - p by linarith) (show 1 - p < 1 by linarith)]
theorem F_Q (hs : 0 < s) {p : ℝ} (h0 : 0 < p) (h1 : p < 1) : Q m s p ∈ Ioi (0:ℝ) ∧ F m s (Q m s p) = p := by
  have hq : 0 < Q m s p := Real.exp_pos _
  refine ⟨hq, ?_⟩
  rw [F, if_neg (not_le.2 hq), Q, Real.log_exp, add_sub_cancel_left, mul_div_cancel_left₀ _ hs.ne', Phi_PhiInv h0 h1]
theorem Q_F (hs : 0 < s) {x : ℝ} (hx : x ∈ Ioi (0:ℝ)) : 0 < F m s x ∧ F m s x < 1 ∧ Q m s (F m s x) = x := by
  rw [F, if_neg (not_le.2 hx)]
  refine ⟨Phi_pos _, Phi_lt_one _, ?_⟩
  rw [Q, PhiInv_Phi, mul_div_cancel₀ _ hs.ne', add_sub_cancel, Real.exp_log hx]

/-- the powers of the quantile function of `mu = 0` -/
theorem int01_pow (s : ℝ) (n : ℕ) :
    Int01 (fun p => Real.exp (s * PhiInv p) ^ n) (Real.exp (n ^ 2 * s ^ 2 / 2)) := by
  have h := int01_exp (n * s)
  rw [mul_pow] at h
  refine h.congr fun p _ _ => ?_
  rw [← Real.exp_nat_mul, mul_assoc]

theorem F_aff (hs : 0 < s) (p : ℝ) (h0 : 0 < p) (h1 : p < 1) :
    F m s (0 + Real.exp m * Real.exp (s * PhiInv p)) = p := by
  rw [zero_add, ← Real.exp_add]; exact (F_Q hs h0 h1).2

theorem hasMV (hs : 0 < s) : HasMV (f m s) (Real.exp (m + s ^ 2 / 2))
    ((Real.exp (s ^ 2) - 1) * Real.exp (2 * m + s ^ 2)) := by
  have h := hasMV_of_affine (isDist hs) (F_aff (m := m) hs) (by simpa using int01_pow s 1) (int01_pow s 2)
  convert h using 1
  · rw [zero_add, ← Real.exp_add]
  · rw [← Real.exp_nat_mul, ← Real.exp_nat_mul, mul_sub, sub_mul, ← Real.exp_add, ← Real.exp_add, ← Real.exp_add,
      one_mul]
    push_cast
    congr 2 <;> ring

theorem hasEnt (hs : 0 < s) :
    HasEnt (f m s) (Real.log s + m + 1 / 2 + 1 / 2 * Real.log (2 * Real.pi)) := by
  refine HasEnt.of_int01 (isDist hs) (fun p h0 h1 => (F_Q hs h0 h1).2) ?_
  have h := ((Int01.const (Real.log (2 * Real.pi) / 2 + Real.log s + m)).add (int01_PhiInv.mul s)).add
    (int01_PhiInv_sq.mul (1 / 2))
  have e : Real.log (2 * Real.pi) / 2 + Real.log s + m + s * 0 + 1 / 2 * 1 =
    Real.log s + m + 1 / 2 + 1 / 2 * Real.log (2 * Real.pi) := by ring
  rw [e] at h
  refine h.congr fun p h0 h1 => ?_
  rw [← nl_eq hs (F_Q hs h0 h1).1, Q, Real.log_exp, normal.nl]
  field_simp; ring

theorem validateX {xs : List ℝ} (hx : ∀ x ∈ xs, 0 < x) {hi : Option Num} (h : hi = none ∨ hi = some pinf) (b : Bool) :
    validateXBounds (xs.map fin) (some 0) hi true b = .ok (xs.map fin) := by
  refine validateXBounds_ok ?_ ?_
  · rw [zero_def, badLow_strict]; rintro ⟨t, ht, h⟩; exact absurd h (not_le.2 (hx t ht))
  · rcases h with rfl | rfl
    · simp [badHigh]
    · simp
theorem validateX_bad {xs : List ℝ} (hx : ∃ x ∈ xs, x ≤ 0) (hi : Option Num) (b : Bool) :
    validateXBounds (xs.map fin) (some 0) hi true b = .error .valueError :=
  validateXBounds_low (by rw [zero_def, badLow_strict]; exact hx)

theorem nll_eval (hs : 0 < s) {xs : List ℝ} (hx : ∀ x ∈ xs, 0 < x) :
    nll (xs.map fin) (fin m) (fin s) =
      .ok (fin (((xs.map Real.log).map (normal.nl m s)).sum + (xs.map Real.log).sum)) := by
  have h := mapM_logpdf (logpdf := fun t => logpdf t (fin m) (fin s))
    (l := fun x => -(normal.nl m s (Real.log x) + Real.log x)) (xs := xs) fun x h => logpdf_nl hs (hx x h)
  simp only [nll, validate_ok hs, validateX hx (Or.inr rfl), ok_bind, h, mp.fsum_fin, neg_fin, pure_eq_ok]
  congr 2
  clear h hx
  induction xs with
  | nil => simp
  | cons a t ih => simp at ih ⊢; linarith

theorem mle_eval {xs : List ℝ} (hn : xs ≠ []) (hx : ∀ x ∈ xs, 0 < x) :
    mle (xs.map fin) = .ok (fin (sampleMean (xs.map Real.log)), fin (Real.sqrt (sampleVar (xs.map Real.log)))) := by
  have h := mapM_logpdf (logpdf := mp.log) (l := Real.log) (xs := xs) fun x h => mp.log_pos (hx x h)
  have h2 := normal.mle_eval (xs := xs.map Real.log) (by simpa using hn)
  simp only [normal.mle, List.length_map] at h2
  simp only [mle, validateX hx (Or.inl rfl), ok_bind, h, List.length_map, h2]

theorem sq_sum {xs : List ℝ} (hn : xs ≠ []) :
    (xs.length : ℝ) * (xs.map fun x => x ^ 2).sum - xs.sum ^ 2 = xs.length ^ 2 * sampleVar xs := by
  have h0 : (xs.length : ℝ) ≠ 0 := by exact_mod_cast (List.length_pos_iff.2 hn).ne'
  have h := sum_sq_sub_mean hn 0
  simp only [sub_zero] at h
  rw [h, sampleMean]; field_simp; ring

theorem mom_eval {xs : List ℝ} (hn : xs ≠ []) (hx : ∀ x ∈ xs, 0 < x) :
    ∃ m s : ℝ, mom (xs.map fin) = .ok (fin m, fin s) ∧ (0 ≤ s ∧ (s = 0 ↔ sampleVar xs = 0)) ∧
      Real.exp (m + s ^ 2 / 2) = sampleMean xs ∧
      (Real.exp (s ^ 2) - 1) * Real.exp (2 * m + s ^ 2) = sampleVar xs := by
  have hn0 : (0:ℝ) < xs.length := by exact_mod_cast List.length_pos_iff.2 hn
  have h1 : 0 < xs.sum := List.sum_pos _ hx hn
  have h2 : 0 < (xs.map fun x => x ^ 2).sum := List.sum_pos _ (by
    simp only [List.mem_map]; rintro _ ⟨x, h, rfl⟩; have := hx x h; positivity) (by simpa using hn)
  have e0 : (xs.map fin).map (fun t => t * t) = (xs.map fun x => x ^ 2).map fin := by
    simp only [List.map_map, Function.comp_def, fin_mul, pow_two]
  have hsq := sq_sum hn
  set A := xs.sum
  set B := (xs.map fun x => x ^ 2).sum
  have hv := sampleVar_nonneg xs
  have hlog : Real.log B - 2 * Real.log A + Real.log xs.length = Real.log (xs.length * B / A ^ 2) := by
    rw [Real.log_div (by positivity) (by positivity), Real.log_mul hn0.ne' h2.ne', Real.log_pow]; push_cast; ring
  have hge : 1 ≤ xs.length * B / A ^ 2 := by
    rw [le_div_iff₀ (by positivity)]; nlinarith [mul_nonneg (sq_nonneg (xs.length : ℝ)) hv]
  have hr : 0 ≤ Real.log B - 2 * Real.log A + Real.log xs.length := by rw [hlog]; exact Real.log_nonneg hge
  refine ⟨-Real.log B / 2 + 2 * Real.log A - 3 * Real.log xs.length / 2, _, ?_, ⟨Real.sqrt_nonneg
    (Real.log B - 2 * Real.log A + Real.log xs.length), ?_⟩, ?_, ?_⟩
  · have e1 : mp.fsum (xs.map fin) = fin A := mp.fsum_fin xs
    simp only [mom, validateX hx (Or.inl rfl), ok_bind, e0, e1, mp.fsum_fin, List.length_map]
    rw [show (xs.map fun x => x ^ 2).sum = B from rfl]
    simp only [mp.log_pos h1, mp.log_pos h2, mp.log_pos hn0, ok_bind, neg_fin, ofNat_def, fin_mul, fin_add, fin_sub,
      fin_div _ (two_ne_zero (α := ℝ)), mp.sqrt_nonneg hr, pure_eq_ok]
  · rw [Real.sqrt_eq_zero hr, hlog]
    have : xs.length * B / A ^ 2 = 1 + xs.length ^ 2 * sampleVar xs / A ^ 2 := by
      rw [← hsq]; field_simp; ring
    constructor
    · intro h
      have h3 := Real.eq_one_of_pos_of_log_eq_zero (by positivity) h
      rw [this] at h3
      have h4 : xs.length ^ 2 * sampleVar xs / A ^ 2 = 0 := by linarith
      simpa [hn0.ne', h1.ne', hn] using h4
    · intro h; rw [this, h]; simp
  · rw [Real.sq_sqrt hr, show -Real.log B / 2 + 2 * Real.log A - 3 * Real.log xs.length / 2 +
      (Real.log B - 2 * Real.log A + Real.log xs.length) / 2 = Real.log A - Real.log xs.length by ring,
      Real.exp_sub, Real.exp_log h1, Real.exp_log hn0]; rfl
  · rw [Real.sq_sqrt hr, show 2 * (-Real.log B / 2 + 2 * Real.log A - 3 * Real.log xs.length / 2) +
      (Real.log B - 2 * Real.log A + Real.log xs.length) = Real.log (A ^ 2 / xs.length ^ 2) by
        rw [Real.log_div (by positivity) (by positivity), Real.log_pow, Real.log_pow]; push_cast; ring,
      hlog, Real.exp_log (by positivity), Real.exp_log (by positivity)]
    have : sampleVar xs = (xs.length * B - A ^ 2) / xs.length ^ 2 := by rw [hsq]; field_simp
    rw [this]; field_simp

end Mpsci.lognormal
