import Verif.Model.Dist.Normal
import Verif.Lemmas.Common
import Verif.Lemmas.Helpers
import Verif.Lemmas.NormalDist
import Verif.Lemmas.NormalMle
import Verif.Lemmas.Fit

namespace Mpsci.normal

open Classical Num common Filter Topology Set Spec

variable {loc s : ℝ}

theorem pdf_eval (hs : 0 < s) (x : ℝ) : pdf (fin x) (fin loc) (fin s) = .ok (fin (phi ((x - loc) / s) / s)) := by
  simp only [pdf, validateLocScale_ok _ hs, ok_bind, mp.npdf_fin hs]
theorem cdf_eval (hs : 0 < s) (x : ℝ) : cdf (fin x) (fin loc) (fin s) = .ok (fin (Phi ((x - loc) / s))) := by
  simp only [cdf, validateLocScale_ok _ hs, ok_bind, mp.ncdf3_fin hs]
theorem sf_eval (hs : 0 < s) (x : ℝ) : sf (fin x) (fin loc) (fin s) = .ok (fin (1 - Phi ((x - loc) / s))) := by
  simp only [sf, validateLocScale_ok _ hs, ok_bind, neg_fin, ofNat_def, fin_mul, fin_add, mp.ncdf3_fin hs, ← Phi_neg]
  congr 3; ring

/-- minus the logarithm of the density -/
noncomputable def nl (loc s x : ℝ) : ℝ := Real.log (2 * Real.pi) / 2 + Real.log s + (x - loc) ^ 2 / (2 * s ^ 2)

theorem logpdf_nl (hs : 0 < s) (x : ℝ) : logpdf (fin x) (fin loc) (fin s) = .ok (fin (-nl loc s x)) := by
  have h1 : 0 < 2 * Real.pi := by have := Real.pi_pos; positivity
  have h2 : 2 * (s * s) ≠ 0 := by positivity
  simp only [logpdf, validateLocScale_ok _ hs, ok_bind, mp.pi_def, ofNat_def, fin_mul, mp.log_pos h1,
    fin_div _ (two_ne_zero (α := ℝ)), neg_fin, mp.log_pos hs, fin_sub, fin_div _ h2, pure_eq_ok, nl]
  congr 2; rw [← pow_two, ← pow_two]; ring
theorem nl_eq (hs : 0 < s) (x : ℝ) : -nl loc s x = Real.log (phi ((x - loc) / s) / s) := by
  rw [Real.log_div (phi_pos _).ne' hs.ne', log_phi, nl, div_pow]; field_simp; ring
theorem logpdf_eval (hs : 0 < s) (x : ℝ) :
    logpdf (fin x) (fin loc) (fin s) = .ok (fin (Real.log (phi ((x - loc) / s) / s))) := by
  rw [logpdf_nl hs, nl_eq hs]

theorem pdf_returns (hs : 0 < s) (x : ℝ) : Returns (pdf (fin x) (fin loc) (fin s)) := ⟨_, pdf_eval hs x⟩
theorem logpdf_returns (hs : 0 < s) (x : ℝ) : Returns (logpdf (fin x) (fin loc) (fin s)) := ⟨_, logpdf_eval hs x⟩

theorem isDist (hs : 0 < s) : IsDist (fun x => Phi ((x - loc) / s)) (fun x => phi ((x - loc) / s) / s) :=
  isDist_normal.affine loc hs

theorem sqrt2 : mp.sqrt (fin 2) = .ok (fin (Real.sqrt 2)) := mp.sqrt_nonneg two_pos.le

theorem invcdf_eval (hs : 0 < s) {p : ℝ} (h0 : 0 < p) (h1 : p < 1) :
    invcdf (fin p) (fin loc) (fin s) = .ok (fin (loc + s * PhiInv p)) := by
  have h2 : Real.sqrt 2 ≠ 0 := by positivity
  simp only [invcdf, validateP_ok h0.le h1.le, validateLocScale_ok _ hs, ok_bind, ofNat_def, fin_mul, one_def, fin_sub,
    mp.erfinv_PhiInv h0 h1, sqrt2, fin_add, pure_eq_ok]
  congr 2; field_simp; ring
theorem invsf_eval (hs : 0 < s) {p : ℝ} (h0 : 0 < p) (h1 : p < 1) :
    invsf (fin p) (fin loc) (fin s) = .ok (fin (loc + s * PhiInv (1 - p))) := by
  have h2 : Real.sqrt 2 ≠ 0 := by positivity
  have e : (1:ℝ) - 2 * p = 2 * (1 - p) - 1 := by ring
  simp only [invsf, validateP_ok h0.le h1.le, validateLocScale_ok _ hs, ok_bind, ofNat_def, fin_mul, one_def, fin_sub, e,
    mp.erfinv_PhiInv (show 0 < 1 - p by linarith) (show 1 - p < 1 by linarith), sqrt2, fin_add, pure_eq_ok]
  congr 2; field_simp; ring
theorem F_Q (_ : 0 < s) {p : ℝ} (h0 : 0 < p) (h1 : p < 1) : PhiInv p ∈ (univ : Set ℝ) ∧ Phi (PhiInv p) = p :=
  ⟨trivial, Phi_PhiInv h0 h1⟩
theorem Q_F (_ : 0 < s) {x : ℝ} (_ : x ∈ (univ : Set ℝ)) : 0 < Phi x ∧ Phi x < 1 ∧ PhiInv (Phi x) = x :=
  ⟨Phi_pos x, Phi_lt_one x, PhiInv_Phi x⟩

theorem std_logpdf (x : ℝ) : logpdf (fin x) (fin 0) (fin 1) = .ok (fin (Real.log (phi x))) := by
  have h := logpdf_eval (loc := 0) one_pos x
  rwa [sub_zero, div_one, div_one] at h
theorem std_cdf (x : ℝ) : cdf (fin x) (fin 0) (fin 1) = .ok (fin (Phi x)) := by
  have h := cdf_eval (loc := 0) one_pos x
  rwa [sub_zero, div_one] at h
theorem std_invcdf {q : ℝ} (h0 : 0 < q) (h1 : q < 1) : invcdf (fin q) (fin 0) (fin 1) = .ok (fin (PhiInv q)) := by
  have := invcdf_eval (loc := 0) one_pos h0 h1
  rwa [zero_add, one_mul] at this

theorem endPoints_std : invcdf (fin 0) (fin 0) (fin 1) = .ok ninf ∧ invcdf (fin 1) (fin 0) (fin 1) = .ok pinf := by
  have h2 : 0 < Real.sqrt 2 := by positivity
  have e1 : (2:ℝ) - 1 = 1 := by norm_num
  constructor <;> simp [invcdf, validateP_ok, validateLocScale_ok, sqrt2, scaleInf_pos h2, e1]
theorem atInfinities_std : cdf ninf (fin 0) (fin 1) = .ok (fin 0) ∧ cdf pinf (fin 0) (fin 1) = .ok (fin 1) := by
  constructor <;> simp [cdf, mp.ncdf3, validateLocScale_ok, pinf_div_pos one_pos, ninf_div_pos one_pos]

theorem hasMV_std : HasMV phi 0 1 :=
  HasMV.of_int01 isDist_normal (fun _ => Phi_PhiInv) int01_PhiInv int01_PhiInv_sq (by norm_num)

theorem nll_eval (hs : 0 < s) (xs : List ℝ) :
    nll (xs.map fin) (fin loc) (fin s) = .ok (fin (xs.map (nl loc s)).sum) := by
  have h := mapM_logpdf (logpdf := fun t => logpdf t (fin loc) (fin s)) (l := fun x => -nl loc s x) (xs := xs)
    fun x _ => logpdf_nl hs x
  simp only [nll, validateLocScale_ok _ hs, ok_bind, h, mp.fsum_fin, neg_fin, pure_eq_ok]
  congr 2
  clear h
  induction xs with
  | nil => simp
  | cons a t ih => simp at ih ⊢; linarith

theorem mle_eval {xs : List ℝ} (hn : xs ≠ []) :
    mle (xs.map fin) = .ok (fin (sampleMean xs), fin (Real.sqrt (sampleVar xs))) := by
  have h0 : (xs.length : ℝ) ≠ 0 := by exact_mod_cast (List.length_pos_iff.2 hn).ne'
  have hv := sampleVar_nonneg xs
  have e : (xs.map fin).map (fun xi => (xi - fin (sampleMean xs)) * (xi - fin (sampleMean xs))) =
      (xs.map fun x => (x - sampleMean xs) ^ 2).map fin := by
    simp only [List.map_map, Function.comp_def, fin_sub, fin_mul, pow_two]
  have e1 : xs.sum / (xs.length : ℝ) = sampleMean xs := rfl
  have e2 : (xs.map fun x => (x - sampleMean xs) ^ 2).sum / (xs.length : ℝ) = sampleVar xs := rfl
  simp only [mle, mp.fsum_fin, List.length_map, fin_div _ h0, ok_bind, e1, e, e2, mp.sqrt_nonneg hv, pure_eq_ok]

end Mpsci.normal
