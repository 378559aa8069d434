import Verif.Model.Dist.MultivariateT
import Verif.Lemmas.MvtDist
import Verif.Lemmas.Dist.StudentT
import Verif.Spec.Vector

/-!
# The multivariate t distribution (C66)
-/

namespace Mpsci.multivariate_t

open Classical Num Spec MeasureTheory Matrix mp

variable {p : ℕ} {v : ℝ} {S : Matrix (Fin p) (Fin p) ℝ}

theorem mat_is (S : Matrix (Fin p) (Fin p) ℝ) : (matOf S).Is S := fun i j => by
  change (if h : (i : ℕ) < p ∧ (j : ℕ) < p then fin (S ⟨i, h.1⟩ ⟨j, h.2⟩) else nan) = _
  rw [dif_pos ⟨i.2, j.2⟩]
  rfl

theorem choose_eq (h : ∃ S', (matOf S).Is S') : h.choose = S := by
  ext i j
  have h1 := h.choose_spec i j
  rw [mat_is S i j] at h1
  injection h1 with h1
  exact h1.symm

theorem det_mat (S : Matrix (Fin p) (Fin p) ℝ) : mp.det (matOf S) = .ok (fin S.det) := by
  have h : ∃ S', (matOf S).Is S' := ⟨S, mat_is S⟩
  rw [mp.det, if_neg (by simp [matOf]), dif_pos h, choose_eq h]
  rfl

theorem inverse_mat (h0 : S.det ≠ 0) : mp.inverse (matOf S) = .ok (matOf S⁻¹) := by
  have h : ∃ S', (matOf S).Is S' := ⟨S, mat_is S⟩
  rw [mp.inverse, if_neg (by simp [matOf]), dif_pos h, choose_eq h]
  exact if_neg h0

theorem inverse_singular (h0 : S.det = 0) : mp.inverse (matOf S) = .error .zeroDivision := by
  have h : ∃ S', (matOf S).Is S' := ⟨S, mat_is S⟩
  rw [mp.inverse, if_neg (by simp [matOf]), dif_pos h, choose_eq h]
  exact if_pos h0

theorem vec_length (x : Fin p → ℝ) : (vecList x).length = p := by simp [vecList, nums]

theorem vec_getD (x : Fin p → ℝ) (i : Fin p) : (vecList x).getD i 0 = fin (x i) := by
  rw [vecList, nums, List.getD_eq_getElem?_getD, List.getElem?_map, List.getElem?_ofFn, dif_pos i.2]; rfl

theorem fsum_range {g : ℕ → Num} {u : Fin p → ℝ} (h : ∀ i : Fin p, g i = fin (u i)) : mp.fsum ((List.range p).map g) = fin (∑ i, u i) := by
  have : (List.range p).map g = (List.ofFn u).map fin := by
    rw [List.map_ofFn]
    refine List.ext_getElem (by simp) fun i h1 h2 => ?_
    simp at h1 h2
    simpa using h ⟨i, h1⟩
  rw [this, mp.fsum_fin, List.sum_ofFn]

/-- the quadratic form -/
theorem form_eval (x m : Fin p → ℝ) (A : Matrix (Fin p) (Fin p) ℝ) : ∃ L X D R W,
    Mat.col p (vecList m) = .ok L ∧ Mat.col p (vecList x) = .ok X ∧ Mat.sub X L = .ok D ∧ Mat.mul D.T (matOf A) = .ok R ∧ Mat.mul R D = .ok W ∧
    W.get 0 0 = fin ((x - m) ⬝ᵥ (A *ᵥ (x - m))) := by
  have c1 : ∀ y : Fin p → ℝ, Mat.col p (vecList y) = .ok ⟨p, 1, fun i _ => (vecList y).getD i 0⟩ := fun y => by
    rw [Mat.col, if_neg (by rw [vec_length]; omega)]
  refine ⟨_, _, _, _, _, c1 m, c1 x, if_pos ⟨rfl, rfl⟩, if_pos rfl, if_pos rfl, ?_⟩
  have hd : ∀ i : Fin p, (vecList x).getD i 0 - (vecList m).getD i 0 = fin ((x - m) i) := fun i => by rw [vec_getD, vec_getD, fin_sub]; rfl
  have hj : ∀ j : Fin p, mp.fsum ((List.range p).map fun k => ((vecList x).getD k 0 - (vecList m).getD k 0) * (matOf A).get k j) =
      fin (∑ k, (x - m) k * A k j) := fun j => fsum_range fun k => by
    rw [hd, mat_is A k j, fin_mul]
  have := fsum_range (p := p) (g := fun j => mp.fsum ((List.range p).map fun k => ((vecList x).getD k 0 - (vecList m).getD k 0) * (matOf A).get k j) *
    ((vecList x).getD j 0 - (vecList m).getD j 0)) (u := fun j => (∑ k, (x - m) k * A k j) * (x - m) j) (fun j => by rw [hj, hd, fin_mul])
  refine this.trans ?_
  congr 1
  simp only [dotProduct, mulVec, Finset.sum_mul, Finset.mul_sum]
  rw [Finset.sum_comm]
  exact Finset.sum_congr rfl fun i _ => Finset.sum_congr rfl fun j _ => by ring

theorem logpdf_some (hv : 0 < v) (hS : S.PosDef) (x m : Fin p → ℝ) :
    logpdf (vecList x) (fin v) (vecList m) (matOf S) (some (matOf S⁻¹)) = .ok (fin (Real.log (mvtD.f v m S x))) := by
  obtain ⟨L, X, D, R, W, h1, h2, h3, h4, h5, h6⟩ := form_eval x m S⁻¹
  have hp : (0:ℝ) ≤ p := p.cast_nonneg
  have g1 : 0 < v / 2 := by linarith
  have g2 : 0 < (v + p) / 2 := by linarith
  have hQ := mvtD.Q_nonneg hv m hS x
  have hl : -1 < (x - m) ⬝ᵥ (S⁻¹ *ᵥ (x - m)) / v := by
    have : mvtD.Q v m S x = (x - m) ⬝ᵥ (S⁻¹ *ᵥ (x - m)) / v := rfl
    linarith
  simp only [logpdf, vec_length, show (matOf S).cols = p from rfl, pure_eq_ok, ok_bind, h1, h2, h3, h4, h5, h6, ofNat_def, fin_add,
    fin_div _ (two_ne_zero (α := ℝ)), fin_div _ hv.ne', mp.log1p_pos hl, mp.loggamma_pos g1, mp.loggamma_pos g2, mp.log_pos hv, mp.pi_def,
    mp.log_pos Real.pi_pos, det_mat, mp.log_pos hS.det_pos, fin_mul, fin_sub, neg_fin]
  congr 2
  rw [mvtD.log_f hv m hS, mvtD.log_C hv hS, Real.log_mul Real.pi_ne_zero hv.ne', mvtD.Q]
  ring

theorem logpdf_none (hv : 0 < v) (hS : S.PosDef) (x m : Fin p → ℝ) :
    logpdf (vecList x) (fin v) (vecList m) (matOf S) = .ok (fin (Real.log (mvtD.f v m S x))) := by
  rw [← logpdf_some hv hS x m]
  simp only [logpdf, inverse_mat hS.det_pos.ne', ok_bind, pure_eq_ok]

theorem pdf_eval (hv : 0 < v) (hS : S.PosDef) (x m : Fin p → ℝ) : pdf (vecList x) (fin v) (vecList m) (matOf S) = .ok (fin (mvtD.f v m S x)) := by
  rw [pdf, logpdf_none hv hS, ok_bind, mp.exp_fin, Real.exp_log (mvtD.f_pos hv m hS x)]; rfl

/-- C66: `pdf` is a probability density, in every dimension, for every location and every positive definite scale matrix -/
theorem isPdf (hv : 0 < v) (hS : S.PosDef) (m : Fin p → ℝ) : IsVecPdf p (pdf · (fin v) (vecList m) (matOf S)) :=
  ⟨mvtD.f v m S, fun x => pdf_eval hv hS x m, fun x => (mvtD.f_pos hv m hS x).le, (mvtD.int_one hv m hS).1, (mvtD.int_one hv m hS).2⟩

/-- C66: `logpdf` is its logarithm; with the inverse matrix given, the values are the same -/
theorem isLog (hv : 0 < v) (hS : S.PosDef) (x m : Fin p → ℝ) : ∃ r : ℝ, 0 < r ∧ pdf (vecList x) (fin v) (vecList m) (matOf S) = .ok (fin r) ∧
    logpdf (vecList x) (fin v) (vecList m) (matOf S) = .ok (fin (Real.log r)) ∧
    pdf (vecList x) (fin v) (vecList m) (matOf S) (some (matOf S⁻¹)) = .ok (fin r) ∧
    logpdf (vecList x) (fin v) (vecList m) (matOf S) (some (matOf S⁻¹)) = .ok (fin (Real.log r)) := by
  refine ⟨_, mvtD.f_pos hv m hS x, pdf_eval hv hS x m, logpdf_none hv hS x m, ?_, logpdf_some hv hS x m⟩
  rw [pdf, logpdf_some hv hS, ok_bind, mp.exp_fin, Real.exp_log (mvtD.f_pos hv m hS x)]; rfl

/-- C66: `entropy` is the differential entropy of the density -/
theorem isEntropy (hv : 0 < v) (hS : S.PosDef) (m : Fin p → ℝ) :
    IsVecEntropy p (pdf · (fin v) (vecList m) (matOf S)) (entropy (fin v) (vecList m) (matOf S)) := by
  have hp : (0:ℝ) ≤ p := p.cast_nonneg
  have g1 : 0 < v / 2 := by linarith
  have g2 : 0 < (v + p) / 2 := by linarith
  have k := mvtD.int_ent hv m hS
  refine ⟨mvtD.f v m S, _, fun x => pdf_eval hv hS x m, ?_, k.1, rfl⟩
  simp only [entropy, vec_length, ofNat_def, fin_add, fin_div _ (two_ne_zero (α := ℝ)), ok_bind, mp.loggamma_pos g1, mp.loggamma_pos g2, mp.pi_def,
    fin_mul, mp.log_pos (mul_pos hv Real.pi_pos), mp.digamma_pos g1, mp.digamma_pos g2, det_mat, abs_fin, abs_of_pos hS.det_pos, mp.log_pos hS.det_pos,
    fin_sub, neg_fin, pure_eq_ok]
  congr 2
  rw [k.2, mvtD.log_C hv hS, mul_comm v Real.pi]
  ring

/-- C08, C66: the location shifts the density -/
theorem shift (hv : 0 < v) (hS : S.PosDef) (x m c : Fin p → ℝ) :
    pdf (vecList (x + c)) (fin v) (vecList (m + c)) (matOf S) = pdf (vecList x) (fin v) (vecList m) (matOf S) := by
  rw [pdf_eval hv hS, pdf_eval hv hS]; simp [mvtD.f, mvtD.Q]

/-- C09, C66: the density is symmetric about the location and largest there -/
theorem symm_mode (hv : 0 < v) (hS : S.PosDef) (d m : Fin p → ℝ) : ∃ r s : ℝ, pdf (vecList (m + d)) (fin v) (vecList m) (matOf S) = .ok (fin r) ∧
    pdf (vecList (m - d)) (fin v) (vecList m) (matOf S) = .ok (fin r) ∧ pdf (vecList m) (fin v) (vecList m) (matOf S) = .ok (fin s) ∧ r ≤ s := by
  refine ⟨_, _, pdf_eval hv hS _ m, ?_, pdf_eval hv hS m m, ?_⟩
  · rw [pdf_eval hv hS]
    simp [mvtD.f, mvtD.Q, mulVec_neg]
  · have hp : (0:ℝ) ≤ p := p.cast_nonneg
    have h1 := mvtD.Q_nonneg hv m hS (m + d)
    have h2 : mvtD.Q v m S m = 0 := by simp [mvtD.Q]
    refine div_le_div_of_nonneg_right ?_ (mvtD.C_pos hv hS).le
    rw [h2]
    refine Real.rpow_le_rpow_of_nonpos (by norm_num) (by linarith) (by linarith)

/-- C12, C66: in one dimension it is Student's t distribution with the given location and squared scale -/
theorem pdf_one (hv : 0 < v) {s : ℝ} (hs : 0 < s) (x m : ℝ) : ∃ r : ℝ, studentt.pdf (fin ((x - m) / s)) (fin v) = .ok (fin r) ∧
    pdf [fin x] (fin v) [fin m] (matOf !![s ^ 2]) = .ok (fin (r / s)) := by
  have hS : (!![s ^ 2] : Matrix (Fin 1) (Fin 1) ℝ).PosDef := by
    have : (!![s ^ 2] : Matrix (Fin 1) (Fin 1) ℝ) = Matrix.diagonal fun _ => s ^ 2 := by ext i j; fin_cases i; fin_cases j; rfl
    rw [this]; exact PosDef.diagonal fun _ => by positivity
  have h := pdf_eval hv hS ![x] ![m]
  have e : ∀ y : ℝ, vecList ![y] = [fin y] := fun y => by simp [vecList, nums]
  rw [e, e] at h
  refine ⟨_, studentt.pdf_eval hv _, h.trans ?_⟩
  congr 2
  have hq : mvtD.Q v ![m] !![s ^ 2] ![x] = ((x - m) / s) ^ 2 / v := by
    have : (!![s ^ 2] : Matrix (Fin 1) (Fin 1) ℝ)⁻¹ = !![(s ^ 2)⁻¹] := by
      refine Matrix.inv_eq_right_inv ?_
      ext i j; fin_cases i; fin_cases j; simp [Matrix.mul_apply, hs.ne']
    rw [mvtD.Q, this]
    simp [dotProduct, mulVec]
    field_simp
  have hd : (!![s ^ 2] : Matrix (Fin 1) (Fin 1) ℝ).det = s ^ 2 := by simp
  have g1 := Real.Gamma_pos_of_pos (by linarith : 0 < v / 2)
  have g2 := Real.Gamma_pos_of_pos (by linarith : 0 < (v + 1) / 2)
  rw [mvtD.f, hq, mvtD.C, hd, Real.sqrt_sq hs.le, tD.f, tD.C, tD.w, mvtD.I]
  simp only [Nat.cast_one]
  rw [show (v + 1) / 2 - 1 / 2 = v / 2 by ring, ← Real.sqrt_eq_rpow, mul_comm Real.pi v]
  rw [betaFn, Real.Gamma_one_half_eq, show 1 / 2 + v / 2 = (v + 1) / 2 by ring, Real.sqrt_mul hv.le]
  have := Real.sqrt_pos.2 Real.pi_pos
  have := Real.sqrt_pos.2 hv
  field_simp

/-- C66: a singular scale matrix raises ZeroDivisionError -/
theorem singular (nu : Num) (x m : List Num) (h : S.det = 0) : logpdf x nu m (matOf S) = .error .zeroDivision ∧
    pdf x nu m (matOf S) = .error .zeroDivision := by
  have : logpdf x nu m (matOf S) = .error .zeroDivision := by simp only [logpdf, inverse_singular h, error_bind]
  exact ⟨this, by rw [pdf, this]; rfl⟩

/-- Non-vacuity: a scale matrix that is not diagonal -/
example : IsVecPdf 2 (pdf · (fin 3) (vecList ![1, -1]) (matOf !![2, 1; 1, 2])) := by
  refine isPdf (by norm_num) ?_ _
  refine .of_dotProduct_mulVec_pos (by ext i j; fin_cases i <;> fin_cases j <;> rfl) fun x hx => ?_
  have : x 0 ≠ 0 ∨ x 1 ≠ 0 := by
    by_contra hc; push Not at hc
    exact hx (by ext i; fin_cases i <;> simp [hc])
  simp [dotProduct, mulVec, Fin.sum_univ_two]
  rcases this with h | h
  · have := sq_pos_of_ne_zero h; nlinarith [sq_nonneg (x 0 + x 1), sq_nonneg (x 1)]
  · have := sq_pos_of_ne_zero h; nlinarith [sq_nonneg (x 0 + x 1), sq_nonneg (x 0)]

end Mpsci.multivariate_t
