import Verif.Model.Fit.LogGamma
import Verif.Lemmas.Dist.LogGamma
import Verif.Lemmas.Fit.Gamma

/-! The likelihood of the log-gamma distribution. -/

namespace Mpsci.loggamma

open Classical Num Spec common Set

variable {k s : ℝ} {xs : List ℝ}

theorem bounds (xs : List ℝ) : validateXBounds (xs.map fin) (some ninf) (some pinf) false false = .ok (xs.map fin) :=
  validateXBounds_ok (by simp [badLow]) (by simp [badHigh])

noncomputable def l (k s x : ℝ) : ℝ := (k * (x / s) - Real.exp (x / s)) - Real.log (Real.Gamma k) - Real.log s

theorem logpdf_l (hk : 0 < k) (hs : 0 < s) (x : ℝ) : logpdf (fin x) (fin k) (fin s) = .ok (fin (l k s x)) := by
  rw [logpdf_eval hk hs, Real.log_div (loggammaD.f_pos hk _).ne' hs.ne', loggammaD.log_f hk, l]

theorem nll_eval (hk : 0 < k) (hs : 0 < s) (xs : List ℝ) : nll (xs.map fin) (fin k) (fin s) = .ok (fin (-(xs.map (l k s)).sum)) := by
  have h : (xs.map fin).mapM (fun x => logpdf x (fin k) (fin s)) = .ok ((xs.map (l k s)).map fin) := mapM_logpdf fun x _ => logpdf_l hk hs x
  simp only [nll, validate_ok hk hs, ok_bind, bounds, h, mp.fsum_fin, neg_fin, pure_eq_ok]

/-- as a location-scale family -/
theorem nll_eq (xs : List ℝ) : -(xs.map (l k s)).sum = (xs.map fun x => Real.log s + (Real.exp ((x - 0) / s) - k * ((x - 0) / s))).sum +
    xs.length * Real.log (Real.Gamma k) := by
  induction xs with
  | nil => simp
  | cons a t ih =>
    simp only [List.map_cons, List.sum_cons, List.length_cons] at ih ⊢
    rw [neg_add, ih, l]
    push_cast
    rw [sub_zero]; ring

theorem tangent (k z z' : ℝ) : (Real.exp z - k * z) + (Real.exp z - k) * (z' - z) ≤ Real.exp z' - k * z' := by
  have h := Real.add_one_le_exp (z' - z)
  have h2 := mul_le_mul_of_nonneg_left h (Real.exp_pos z).le
  rw [← Real.exp_add, add_sub_cancel] at h2
  linarith

/-- the equation for the scale -/
theorem scaleEq_eval (hs : s ≠ 0) : scaleEq (xs.map fin) (fin k) (fin s) =
    .ok (fin (-xs.length * s + (xs.map fun x => x * (Real.exp (x / s) - k)).sum)) := by
  have h : (xs.map fin).mapM (fun x1 => (do return x1 * (mp.exp (← x1 /. fin s) - fin k) : M Num)) =
      .ok ((xs.map fun x => x * (Real.exp (x / s) - k)).map fin) :=
    mapM_logpdf fun x _ => by simp only [fin_div _ hs, ok_bind, mp.exp_fin, fin_sub, fin_mul, pure_eq_ok]
  simp only [pure_eq_ok] at h
  simp only [scaleEq, pure_eq_ok, h, ok_bind, mp.fsum_fin, len_fin, neg_fin, fin_mul, fin_add]

theorem scale_min (hs : 0 < s) (h : -xs.length * s + (xs.map fun x => x * (Real.exp (x / s) - k)).sum = 0) {s' : ℝ} (hs' : 0 < s') :
    -(xs.map (l k s)).sum ≤ -(xs.map (l k s')).sum := by
  rw [nll_eq, nll_eq]
  refine add_le_add_left (locScale_stationary (φ := fun z => Real.exp z - k * z) (φ' := fun z => Real.exp z - k) (tangent k) hs ?_
    (Or.inr rfl) hs') _
  have e : (xs.map fun x => x * (Real.exp (x / s) - k)).sum = s * (xs.map fun x => (Real.exp ((x - 0) / s) - k) * ((x - 0) / s)).sum := by
    rw [← List.sum_map_mul_left]
    congr 1
    refine List.map_congr_left fun x _ => ?_
    rw [sub_zero]; field_simp
  rw [e] at h
  have : s * ((xs.map fun x => (Real.exp ((x - 0) / s) - k) * ((x - 0) / s)).sum - xs.length) = 0 := by linarith
  exact sub_eq_zero.1 ((mul_eq_zero.1 this).resolve_left hs.ne')

theorem nll_shape (hn : xs ≠ []) : -(xs.map (l k s)).sum =
    xs.length * (Real.log (Real.Gamma k) - k * sampleMean (xs.map fun x => x / s)) + (xs.map fun x => Real.exp (x / s) + Real.log s).sum := by
  have h : sampleMean (xs.map fun x => x / s) * xs.length = (xs.map fun x => x / s).sum := by
    rw [sum_eq_mean hn, mul_comm]
  have h2 : -(xs.map (l k s)).sum = xs.length * Real.log (Real.Gamma k) - k * (xs.map fun x => x / s).sum +
      (xs.map fun x => Real.exp (x / s) + Real.log s).sum := by
    clear h
    induction xs with
    | nil => simp
    | cons a t ih =>
      by_cases ht : t = []
      · subst ht; simp [l]; ring
      · have := ih ht
        simp only [List.map_cons, List.sum_cons, List.length_cons]
        rw [neg_add, this, l]
        push_cast; ring
  rw [h2, ← h]; ring

theorem shape_min (hk : 0 < k) {m k' : ℝ} (h : psi k = m) (hk' : 0 < k') :
    Real.log (Real.Gamma k) - k * m ≤ Real.log (Real.Gamma k') - k' * m := by
  refine min_of_deriv_sign (h := fun k => Real.log (Real.Gamma k) - k * m) (h' := fun k => psi k - m) (fun x hx => ?_) hk
    (fun x hx hxk => ?_) (fun x hx => ?_) hk'
  · exact ((hasDerivAt_logGamma hx).sub ((hasDerivAt_id x).mul_const m)).congr_deriv (by simp)
  · have := psi_mono hx hxk.le; linarith
  · have := psi_mono hk hx.le; linarith

end Mpsci.loggamma
