import Verif.Model.Fit.BetaCens
import Verif.Lemmas.BetaLog
import Verif.Props.Dist.Beta
import Verif.Spec.Derivs
import Verif.Lemmas.Fit.Basic

/-! # The fit of the beta distribution to interval-censored data (C71) -/

namespace Mpsci.beta

open Classical Num Spec Set Filter Topology betaD

variable {a b : ℝ} {ps : List (ℝ × ℝ)}

/-- the lists of left and right ends -/
noncomputable def los (ps : List (ℝ × ℝ)) : List Num := ps.map fun p => fin p.1
noncomputable def his (ps : List (ℝ × ℝ)) : List Num := ps.map fun p => fin p.2

/-- nondegenerate intervals within `[0, 1]` -/
def Cells (ps : List (ℝ × ℝ)) : Prop := ∀ p ∈ ps, 0 ≤ p.1 ∧ p.1 < p.2 ∧ p.2 ≤ 1

theorem zip_ends : (los ps).zip (his ps) = ps.map fun p => (fin p.1, fin p.2) := by
  rw [los, his, List.zip_map']

noncomputable def censL (ps : List (ℝ × ℝ)) (a b : ℝ) : ℝ := -(ps.map fun p => c p a b - c (0, 1) a b).sum
noncomputable def censLa (ps : List (ℝ × ℝ)) (a b : ℝ) : ℝ := -(ps.map fun p => ca p a b - ca (0, 1) a b).sum
noncomputable def censLb (ps : List (ℝ × ℝ)) (a b : ℝ) : ℝ := -(ps.map fun p => cb p a b - cb (0, 1) a b).sum
noncomputable def censLaa (ps : List (ℝ × ℝ)) (a b : ℝ) : ℝ := -(ps.map fun p => caa p a b - caa (0, 1) a b).sum
noncomputable def censLab (ps : List (ℝ × ℝ)) (a b : ℝ) : ℝ := -(ps.map fun p => cab p a b - cab (0, 1) a b).sum
noncomputable def censLbb (ps : List (ℝ × ℝ)) (a b : ℝ) : ℝ := -(ps.map fun p => cbb p a b - cbb (0, 1) a b).sum

theorem cens_sum_deriv {u : ℝ × ℝ → ℝ → ℝ} {u' : ℝ × ℝ → ℝ} {x : ℝ} (h : ∀ p ∈ ps, HasDerivAt (u p) (u' p) x) :
    HasDerivAt (fun t => -(ps.map fun p => u p t).sum) (-(ps.map u').sum) x := by
  refine HasDerivAt.neg ?_
  induction ps with
  | nil => simpa using hasDerivAt_const x (0:ℝ)
  | cons p ps ih =>
    simp only [List.map_cons, List.sum_cons]
    exact (h p (by simp)).add (ih fun q hq => h q (by simp [hq]))

section
variable (hp : Cells ps) (ha : 0 < a) (hb : 0 < b)
include hp ha hb

theorem censdL_left : HasDerivAt (fun t => censL ps t b) (censLa ps a b) a :=
  cens_sum_deriv fun p h => (hasDerivAt_c_left (hp p h) ha hb).sub (hasDerivAt_c_left cell_full ha hb)
theorem censdL_right : HasDerivAt (fun t => censL ps a t) (censLb ps a b) b :=
  cens_sum_deriv fun p h => (hasDerivAt_c_right (hp p h) ha hb).sub (hasDerivAt_c_right cell_full ha hb)
theorem censdLa_left : HasDerivAt (fun t => censLa ps t b) (censLaa ps a b) a :=
  cens_sum_deriv fun p h => (hasDerivAt_ca_left (hp p h) ha hb).sub (hasDerivAt_ca_left cell_full ha hb)
theorem censdLa_right : HasDerivAt (fun t => censLa ps a t) (censLab ps a b) b :=
  cens_sum_deriv fun p h => (hasDerivAt_ca_right (hp p h) ha hb).sub (hasDerivAt_ca_right cell_full ha hb)
theorem censdLb_left : HasDerivAt (fun t => censLb ps t b) (censLab ps a b) a :=
  cens_sum_deriv fun p h => (hasDerivAt_cb_left (hp p h) ha hb).sub (hasDerivAt_cb_left cell_full ha hb)
theorem censdLb_right : HasDerivAt (fun t => censLb ps a t) (censLbb ps a b) b :=
  cens_sum_deriv fun p h => (hasDerivAt_cb_right (hp p h) ha hb).sub (hasDerivAt_cb_right cell_full ha hb)

theorem nllCens_eval : nllCens (fin a) (fin b) (los ps) (his ps) = .ok (fin (censL ps a b)) := by
  have h : ((los ps).zip (his ps)).mapM (fun x => do mp.log (← intervalProb x.1 x.2 (fin a) (fin b))) =
      .ok (ps.map fun p => fin (c p a b - c (0, 1) a b)) := by
    rw [zip_ends, List.mapM_map]
    refine mapM_ok ps fun p h => ?_
    have hc : Cell p := hp p h
    have hx1 := hc.2.1.le.trans hc.2.2
    have hy0 := hc.1.trans hc.2.1.le
    have hK := K_pos hc ha hb
    have hK1 := K_pos cell_full ha hb
    simp only [Function.comp, intervalProb, validate_ok ha hb, ok_bind, gt_iff, fin_lt, hc.2.1.le.not_gt, if_false,
      mp.betaincReg_fin ha hb hc.1 hx1 hy0 hc.2.2]
    rw [← K_betaInt hc, ← K_full ha hb, mp.log_pos (div_pos hK hK1), Real.log_div hK.ne' hK1.ne']
    rfl
  rw [nllCens, h]
  simp only [ok_bind, pure_eq_ok, mp.fsum_map_fin, neg_fin, censL]

/-- C71: the negative log-likelihood is minus the sum of the logarithms of the probabilities of the intervals. -/
theorem nllCens_spec {F : ℝ → ℝ} (hF : RealFn (fun x => cdf x (fin a) (fin b)) F) :
    nllCens (fin a) (fin b) (los ps) (his ps) = .ok (fin (-(ps.map fun p => Real.log (F p.2 - F p.1)).sum)) := by
  rw [nllCens_eval hp ha hb, censL]
  congr 4
  refine List.map_congr_left fun p h => ?_
  have hc : Cell p := hp p h
  have hx1 := hc.2.1.le.trans hc.2.2
  have hy0 := hc.1.trans hc.2.1.le
  have e : ∀ x, F x = betaD.F a b x := fun x => fin_inj.1 (Except.ok.inj ((hF x).symm.trans (cdf_eval ha hb x)))
  rw [e, e, F_mid ha hb hc.1 hx1, F_mid ha hb hy0 hc.2.2, ← between ha hb hc.1 hx1 hy0 hc.2.2, ← K_betaInt hc, ← K_full ha hb,
    Real.log_div (K_pos hc ha hb).ne' (K_pos cell_full ha hb).ne', c, c]

theorem da_eval : nllCensDa (fin a) (fin b) (los ps) (his ps) = .ok (fin (censLa ps a b)) :=
  mp.diff_eq (by filter_upwards [lt_mem_nhds ha] with t ht using nllCens_eval hp ht hb) (censdL_left hp ha hb)
theorem db_eval : nllCensDb (fin a) (fin b) (los ps) (his ps) = .ok (fin (censLb ps a b)) :=
  mp.diff_eq (by filter_upwards [lt_mem_nhds hb] with t ht using nllCens_eval hp ha ht) (censdL_right hp ha hb)
theorem d2a_eval : nllCensD2a (fin a) (fin b) (los ps) (his ps) = .ok (fin (censLaa ps a b)) :=
  mp.diff_eq (by filter_upwards [lt_mem_nhds ha] with t ht using da_eval hp ht hb) (censdLa_left hp ha hb)
theorem d2b_eval : nllCensD2b (fin a) (fin b) (los ps) (his ps) = .ok (fin (censLbb ps a b)) :=
  mp.diff_eq (by filter_upwards [lt_mem_nhds hb] with t ht using db_eval hp ha ht) (censdLb_right hp ha hb)
theorem dadb_eval : nllCensDadb (fin a) (fin b) (los ps) (his ps) = .ok (fin (censLab ps a b)) :=
  mp.diff_eq (by filter_upwards [lt_mem_nhds hb] with t ht using da_eval hp ha ht) (censdLa_right hp ha hb)

end

/-- C71: the derivatives exist for all `a, b > 0`, and `_nll_cens_da`, `_nll_cens_db` return them. -/
theorem isGradient_cens (hp : Cells ps) : IsGradient {q | 0 < q.1 ∧ 0 < q.2} (fun a b => nllCens (fin a) (fin b) (los ps) (his ps))
    (fun a b => do return (← nllCensDa (fin a) (fin b) (los ps) (his ps), ← nllCensDb (fin a) (fin b) (los ps) (his ps))) :=
  ⟨censL ps, fun _ h => ⟨nllCens_eval hp h.1 h.2, _, _, by simp [da_eval hp h.1 h.2, db_eval hp h.1 h.2], censdL_left hp h.1 h.2, censdL_right hp h.1 h.2⟩⟩

/-- the Hessian matrix -/
noncomputable def censHm (ps : List (ℝ × ℝ)) (a b : ℝ) : Matrix (Fin 2) (Fin 2) ℝ := !![censLaa ps a b, censLab ps a b; censLab ps a b, censLbb ps a b]

theorem hessCens_eval (hp : Cells ps) (ha : 0 < a) (hb : 0 < b) : ∃ m : mp.Mat, hessCens (fin a) (fin b) (los ps) (his ps) = .ok m ∧
    m.rows = 2 ∧ m.cols = 2 ∧ ∀ i j : Fin 2, m.get i j = fin (censHm ps a b i j) := by
  refine ⟨_, by simp only [hessCens, d2a_eval hp ha hb, d2b_eval hp ha hb, dadb_eval hp ha hb, ok_bind]; rfl, rfl, rfl, fun i j => ?_⟩
  fin_cases i <;> fin_cases j <;> simp [censHm]

/-- C71: the matrix `hess` of `_mle_cens` is the matrix of the second derivatives. -/
theorem isHessian_cens (hp : Cells ps) : IsHessian {q | 0 < q.1 ∧ 0 < q.2}
    (fun a b => do return (← nllCensDa (fin a) (fin b) (los ps) (his ps), ← nllCensDb (fin a) (fin b) (los ps) (his ps)))
    (fun a b => do
      let m ← hessCens (fin a) (fin b) (los ps) (his ps)
      return ((m.get 0 0, m.get 0 1), (m.get 1 0, m.get 1 1))) := by
  refine ⟨censLa ps, censLb ps, fun q h => ⟨by simp [da_eval hp h.1 h.2, db_eval hp h.1 h.2], censHm ps q.1 q.2, ?_, censdLa_left hp h.1 h.2, censdLa_right hp h.1 h.2,
    censdLb_left hp h.1 h.2, censdLb_right hp h.1 h.2⟩⟩
  obtain ⟨m, h1, -, -, h4⟩ := hessCens_eval hp h.1 h.2
  simp only [h1, ok_bind, pure_eq_ok, mat]
  rw [← h4 0 0, ← h4 0 1, ← h4 1 0, ← h4 1 1]
  rfl

/-- The likelihood is differentiable only where both parameters are positive: elsewhere `interval_prob` raises. -/
theorem cens_pos (hne : ps ≠ []) {a b : Num} (h : nllCensDa a b (los ps) (his ps) = .ok 0) (h' : nllCensDb a b (los ps) (his ps) = .ok 0) :
    ∃ x y : ℝ, a = fin x ∧ b = fin y ∧ 0 < x ∧ 0 < y := by
  obtain ⟨x, rfl, M, hM, -⟩ := mp.diff_zero h
  obtain ⟨y, rfl, M', hM', -⟩ := mp.diff_zero h'
  obtain ⟨p, qs, rfl⟩ := List.exists_cons_of_ne_nil hne
  have key : ∀ u v w : ℝ, nllCens (fin u) (fin v) (los (p :: qs)) (his (p :: qs)) = .ok (fin w) → 0 < u ∧ 0 < v := by
    intro u v w hw
    by_contra hn
    simp [nllCens, zip_ends, intervalProb, validate_bad hn] at hw
  have h1 := key _ _ _ hM.self_of_nhds
  exact ⟨x, y, rfl, rfl, h1⟩

/-- the inverse of a 2 by 2 matrix -/
theorem inverse_two {m i : mp.Mat} {H : Matrix (Fin 2) (Fin 2) ℝ} (hr : m.rows = 2) (hc : m.cols = 2)
    (hg : ∀ i j : Fin 2, m.get i j = fin (H i j)) (h : mp.inverse m = .ok i) :
    ∃ V : Matrix (Fin 2) (Fin 2) ℝ, V * H = 1 ∧ H * V = 1 ∧ ∀ k l : Fin 2, i.get k l = fin (V k l) := by
  obtain ⟨r, c, g⟩ := m
  obtain rfl : r = 2 := hr
  obtain rfl : c = 2 := hc
  have hex : ∃ S, mp.Mat.Is ⟨2, 2, g⟩ S := ⟨H, hg⟩
  have hch : hex.choose = H := by
    ext k l
    have h1 := hex.choose_spec k l
    exact (fin_inj.1 ((hg k l).symm.trans h1)).symm
  rw [mp.inverse, if_neg (by simp), dif_pos hex, hch] at h
  by_cases hd : H.det = 0
  · rw [if_pos hd] at h; exact absurd h (by simp)
  · rw [if_neg hd] at h
    have hu : IsUnit H.det := isUnit_iff_ne_zero.2 hd
    refine ⟨H⁻¹, Matrix.nonsing_inv_mul _ hu, Matrix.mul_nonsing_inv _ hu, fun k l => ?_⟩
    rw [← Except.ok.inj h]
    exact dif_pos ⟨k.2, l.2⟩

theorem sqrt_ok {x : ℝ} {s : Num} (h : mp.sqrt (fin x) = .ok s) : ∃ u : ℝ, s = fin u ∧ 0 ≤ u ∧ u ^ 2 = x := by
  rcases lt_or_ge x 0 with hx | hx
  · rw [mp.sqrt_neg hx] at h; exact absurd h (by simp)
  · rw [mp.sqrt_nonneg hx] at h
    exact ⟨_, (Except.ok.inj h).symm, Real.sqrt_nonneg _, Real.sq_sqrt hx⟩

/-- C71: what `_mle_cens` returns, if anything, is a stationary point of the likelihood, its Hessian matrix there, which has an inverse,
and the square roots of the diagonal of the inverse.  (That the search finds such a point, and that it is a maximum, is not proved.) -/
theorem mleCens_spec_partial {findroot1 findroot2} (hf : SoundFinder2 findroot2) (hp : Cells ps) (hne : ps ≠ []) {p0 : Option (Num × Num)}
    {r₁ r₂ s₁ s₂ : Num} {m : mp.Mat} (h : mleCens findroot1 findroot2 (los ps) (his ps) p0 = .ok (r₁, r₂, m, s₁, s₂)) :
    ∃ (a b u v : ℝ) (H V : Matrix (Fin 2) (Fin 2) ℝ) (ℓ : ℝ → ℝ → ℝ),
      r₁ = fin a ∧ r₂ = fin b ∧ 0 < a ∧ 0 < b ∧
      (∀ a b, 0 < a → 0 < b → nllCens (fin a) (fin b) (los ps) (his ps) = .ok (fin (ℓ a b))) ∧
      HasDerivAt (fun t => ℓ t b) 0 a ∧ HasDerivAt (fun t => ℓ a t) 0 b ∧
      hessCens r₁ r₂ (los ps) (his ps) = .ok m ∧ (∀ i j : Fin 2, m.get i j = fin (H i j)) ∧
      V * H = 1 ∧ H * V = 1 ∧ s₁ = fin u ∧ s₂ = fin v ∧ 0 ≤ u ∧ 0 ≤ v ∧ u ^ 2 = V 0 0 ∧ v ^ 2 = V 1 1 := by
  unfold mleCens at h
  obtain ⟨q, -, h⟩ := ok_of_bind h
  obtain ⟨⟨x, y⟩, h2, h⟩ := ok_of_bind h
  have h0 := hf _ _ _ h2
  obtain ⟨d1, e1, h0⟩ := ok_of_bind h0
  obtain ⟨d2, e2, h0⟩ := ok_of_bind h0
  have h0 := Prod.mk.inj (Except.ok.inj h0)
  rw [h0.1] at e1
  rw [h0.2] at e2
  obtain ⟨a, b, rfl, rfl, ha, hb⟩ := cens_pos hne e1 e2
  obtain ⟨m', hm', h⟩ := ok_of_bind h
  obtain ⟨i', hi', h⟩ := ok_of_bind h
  obtain ⟨u', hu', h⟩ := ok_of_bind h
  obtain ⟨v', hv', h⟩ := ok_of_bind h
  obtain ⟨rfl, rfl, rfl, rfl, rfl⟩ : fin a = r₁ ∧ fin b = r₂ ∧ m' = m ∧ u' = s₁ ∧ v' = s₂ := by
    simpa using Except.ok.inj h
  obtain ⟨m, hm, hr, hc, hg⟩ := hessCens_eval hp ha hb
  obtain rfl : m = m' := Except.ok.inj (hm.symm.trans hm')
  obtain ⟨V, hV1, hV2, hV⟩ := inverse_two hr hc hg hi'
  rw [show i'.get 0 0 = fin (V 0 0) from hV 0 0] at hu'
  rw [show i'.get 1 1 = fin (V 1 1) from hV 1 1] at hv'
  obtain ⟨u, rfl, hu0, hu⟩ := sqrt_ok hu'
  obtain ⟨v, rfl, hv0, hv⟩ := sqrt_ok hv'
  have ea : censLa ps a b = 0 := by
    have := (da_eval hp ha hb).symm.trans e1
    exact fin_inj.1 (Except.ok.inj this)
  have eb : censLb ps a b = 0 := by
    have := (db_eval hp ha hb).symm.trans e2
    exact fin_inj.1 (Except.ok.inj this)
  exact ⟨a, b, u, v, censHm ps a b, V, censL ps, rfl, rfl, ha, hb, fun a b ha hb => nllCens_eval hp ha hb, ea ▸ censdL_left hp ha hb, eb ▸ censdL_right hp ha hb,
    hm, hg, hV1, hV2, rfl, rfl, hu0, hv0, hu, hv⟩

/-- C71: at a stationary point where the Hessian matrix is positive definite, the call returns. -/
theorem mleCens_returns {findroot1 findroot2} (hp : Cells ps) {p0 : Option (Num × Num)} {q : Num × Num} {H : Matrix (Fin 2) (Fin 2) ℝ} {m : mp.Mat}
    (ha : 0 < a) (hb : 0 < b) (hq : startCens findroot1 findroot2 (los ps) (his ps) p0 = .ok q)
    (hf : findroot2 (fun a b => do return (← nllCensDa a b (los ps) (his ps), ← nllCensDb a b (los ps) (his ps))) q = .ok (fin a, fin b))
    (hm : hessCens (fin a) (fin b) (los ps) (his ps) = .ok m) (hH : ∀ i j : Fin 2, m.get i j = fin (H i j)) (h00 : 0 < H 0 0) (hdet : 0 < H.det) :
    ∃ u v : ℝ, 0 < u ∧ 0 < v ∧ mleCens findroot1 findroot2 (los ps) (his ps) p0 = .ok (fin a, fin b, m, fin u, fin v) := by
  obtain ⟨m', hm', hr, hc, hg⟩ := hessCens_eval hp ha hb
  obtain rfl : m = m' := Except.ok.inj (hm.symm.trans hm')
  have hHm : H = censHm ps a b := by ext i j; exact fin_inj.1 ((hH i j).symm.trans (hg i j))
  have h01 : H 1 0 = H 0 1 := by rw [hHm]; rfl
  have h11 : 0 < H 1 1 := by
    rw [Matrix.det_fin_two, h01] at hdet
    by_contra hn
    nlinarith [mul_nonneg h00.le (not_lt.1 hn |> sub_nonneg.2), sq_nonneg (H 0 1)]
  obtain ⟨r, c, g⟩ := m
  obtain rfl : r = 2 := hr
  obtain rfl : c = 2 := hc
  have hex : ∃ S, mp.Mat.Is ⟨2, 2, g⟩ S := ⟨H, hH⟩
  have hch : hex.choose = H := by
    ext k l
    exact (fin_inj.1 ((hH k l).symm.trans (hex.choose_spec k l))).symm
  have hinv : ∃ i : mp.Mat, mp.inverse ⟨2, 2, g⟩ = .ok i ∧ ∀ k l : Fin 2, i.get k l = fin (H⁻¹ k l) := by
    rw [mp.inverse, if_neg (by simp), dif_pos hex, hch, if_neg hdet.ne']
    exact ⟨_, rfl, fun k l => dif_pos ⟨k.2, l.2⟩⟩
  obtain ⟨i, hi, hiV⟩ := hinv
  have e00 : i.get 0 0 = fin (H⁻¹ 0 0) := hiV 0 0
  have e11 : i.get 1 1 = fin (H⁻¹ 1 1) := hiV 1 1
  have v00 : 0 < H⁻¹ 0 0 := by
    rw [Matrix.inv_def, Matrix.adjugate_fin_two]
    simp only [Ring.inverse_eq_inv', Matrix.smul_apply, smul_eq_mul, Matrix.of_apply, Matrix.cons_val']
    exact mul_pos (inv_pos.2 hdet) h11
  have v11 : 0 < H⁻¹ 1 1 := by
    rw [Matrix.inv_def, Matrix.adjugate_fin_two]
    simp only [Ring.inverse_eq_inv', Matrix.smul_apply, smul_eq_mul, Matrix.of_apply, Matrix.cons_val']
    exact mul_pos (inv_pos.2 hdet) h00
  refine ⟨_, _, Real.sqrt_pos.2 v00, Real.sqrt_pos.2 v11, ?_⟩
  rw [mleCens, hq, ok_bind, hf]
  simp only [hm, hi, ok_bind, e00, e11, mp.sqrt_nonneg v00.le, mp.sqrt_nonneg v11.le, pure_eq_ok]

/-! Test: the hypotheses can be met. -/
example : Cells [((0:ℝ), (1:ℝ) / 3), (1 / 3, 2 / 3), (2 / 3, 1)] := by
  intro p hp
  simp only [List.mem_cons, List.not_mem_nil, or_false] at hp
  rcases hp with rfl | rfl | rfl <;> norm_num

/-- an interval of length 0 has no likelihood: the logarithm of 0 is `-inf` -/
theorem nllCens_point (ha : 0 < a) (hb : 0 < b) {x : ℝ} (h0 : 0 ≤ x) (h1 : x ≤ 1) :
    nllCens (fin a) (fin b) [fin x] [fin x] = .ok pinf := by
  obtain ⟨u, v, hu, hv, h⟩ := intervalProb_spec ha hb h0 le_rfl h1
  obtain rfl : u = v := fin_inj.1 (Except.ok.inj (hu.symm.trans hv))
  rw [sub_self] at h
  simp [nllCens, h, mp.log, mp.fsum]

end Mpsci.beta
