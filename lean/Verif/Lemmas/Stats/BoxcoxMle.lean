import Verif.Lemmas.Stats.Boxcox
import Verif.Lemmas.Fit.Gumbel
import Verif.Spec.Transform
import Mathlib.Analysis.Analytic.IsolatedZeros
import Mathlib.Analysis.SpecialFunctions.Pow.Deriv
import Mathlib.Analysis.SpecialFunctions.ExpDeriv
import Mathlib.Analysis.SpecialFunctions.Exp

/-! The profile log-likelihoods of the Box-Cox and Yeo-Johnson transformations. -/

namespace Mpsci

open Classical Num Spec Filter Topology

theorem var_fin {xs : List ℝ} (hn : xs ≠ []) : stats.var (xs.map fin) = .ok (fin (sampleVar xs)) := by
  have h0 := (length_pos hn).ne'
  have e : (List.map (fun t => (t - fin (sampleMean xs)) * (t - fin (sampleMean xs))) (xs.map fin)) =
      (xs.map fun x => (x - sampleMean xs) ^ 2).map fin := by
    simp only [List.map_map]
    refine List.map_congr_left fun x _ => ?_
    simp [pow_two]
  simp only [stats.var, stats.len, mp.fsum_fin, List.length_map, fin_div _ h0, ok_bind]
  rw [show xs.sum / (xs.length : ℝ) = sampleMean xs from rfl, e]
  simp only [mp.fsum_fin, zero_def, fin_sub, sub_zero, fin_div _ h0]
  rfl

theorem sampleVar_shift (xs : List ℝ) (g : ℝ → ℝ) (c : ℝ) : sampleVar (xs.map fun x => g x + c) = sampleVar (xs.map g) := by
  rcases eq_or_ne xs [] with rfl | hn
  · simp
  have h0 : (xs.length : ℝ) ≠ 0 := by exact_mod_cast (List.length_pos_iff.2 hn).ne'
  have h1 : sampleMean (xs.map fun x => g x + c) = sampleMean (xs.map g) + c := by
    have := sum_map_affine xs g c 1
    simp only [one_mul] at this
    rw [sampleMean, sampleMean, List.length_map, List.length_map, List.map_congr_left (g := fun x => c + g x) fun x _ => add_comm _ _, this]
    field_simp; ring
  rw [sampleVar, sampleVar, h1, List.length_map, List.length_map, List.map_map, List.map_map]
  congr 2
  refine List.map_congr_left fun x _ => ?_
  simp only [Function.comp]; ring

/-- the profile likelihood of a transformation with positive derivative -/
theorem isProfile_of {T D : ℝ → ℝ} {xs : List ℝ} (hn : xs ≠ []) (hD : ∀ x ∈ xs, HasDerivAt T (D x) x) (hp : ∀ x ∈ xs, 0 < D x)
    (hv : 0 < sampleVar (xs.map T)) {r : M Num}
    (hr : r = .ok (fin ((xs.map fun x => Real.log (D x)).sum - xs.length / 2 * Real.log (sampleVar (xs.map T))))) :
    IsProfileLogLik T xs r := by
  have hn' : xs.map T ≠ [] := by simpa using hn
  have hpi : 0 < Real.sqrt (2 * Real.pi) := Real.sqrt_pos.2 (by have := Real.pi_pos; positivity)
  have hlog : Real.log (Real.sqrt (2 * Real.pi)) = Real.log (2 * Real.pi) / 2 := Real.log_sqrt (by have := Real.pi_pos; positivity)
  have key : ∀ μ σ : ℝ, 0 < σ → transLogLik T xs μ σ = (xs.map fun x => Real.log (D x)).sum -
      ((xs.map T).map fun y => Real.log (2 * Real.pi) / 2 + Real.log σ + (y - μ) ^ 2 / (2 * σ ^ 2)).sum := by
    intro μ σ hσ
    have e : ∀ x ∈ xs, Real.log (Real.exp (-(T x - μ) ^ 2 / (2 * σ ^ 2)) / (σ * Real.sqrt (2 * Real.pi)) * deriv T x) =
        Real.log (D x) + -1 * (Real.log (2 * Real.pi) / 2 + Real.log σ + (T x - μ) ^ 2 / (2 * σ ^ 2)) := fun x hx => by
      rw [(hD x hx).deriv, Real.log_mul (by have := Real.exp_pos (-(T x - μ) ^ 2 / (2 * σ ^ 2)); positivity) (hp x hx).ne',
        Real.log_div (Real.exp_pos _).ne' (by positivity), Real.log_exp, Real.log_mul hσ.ne' hpi.ne', hlog]
      ring
    rw [transLogLik, List.map_congr_left e, List.sum_map_add, List.sum_map_mul_left, List.map_map]
    simp only [Function.comp_def]
    ring
  have hs : 0 < Real.sqrt (sampleVar (xs.map T)) := Real.sqrt_pos.2 hv
  refine ⟨transLogLik T xs (sampleMean (xs.map T)) (Real.sqrt (sampleVar (xs.map T))), ⟨⟨_, _, hs, rfl⟩, ?_⟩, ?_⟩
  · rintro y ⟨μ, σ, hσ, rfl⟩
    rw [key μ σ hσ, key _ _ hs]
    exact sub_le_sub_left (normal_nll_min hn' hv _ μ hσ) _
  · rw [hr, key _ _ hs]
    have h0 : (0:ℝ) < (xs.map T).length := by exact_mod_cast List.length_pos_iff.2 hn'
    have hq := Real.sq_sqrt hv.le
    have hL := Real.log_sqrt hv.le
    have h1 := sum_map_affine (xs.map T) (fun y => (y - sampleMean (xs.map T)) ^ 2) (Real.log (2 * Real.pi) / 2 + Real.log (sampleVar (xs.map T)) / 2)
      (1 / (2 * sampleVar (xs.map T)))
    have h2 := sum_sq_sub_mean hn' (sampleMean (xs.map T))
    rw [sub_self] at h2
    rw [h2] at h1
    have h3 : ((xs.map T).map fun y => Real.log (2 * Real.pi) / 2 + Real.log (sampleVar (xs.map T)) / 2 +
        (y - sampleMean (xs.map T)) ^ 2 / (2 * sampleVar (xs.map T))) = (xs.map T).map fun y => Real.log (2 * Real.pi) / 2 +
        Real.log (sampleVar (xs.map T)) / 2 + 1 / (2 * sampleVar (xs.map T)) * (y - sampleMean (xs.map T)) ^ 2 :=
      List.map_congr_left fun y _ => by ring
    rw [hq, hL, h3, h1, List.length_map]
    congr 2
    field_simp
    ring

/-- differentiability of the profile likelihood in the parameter -/
theorem differentiable_sampleVar {T : ℝ → ℝ → ℝ} {xs : List ℝ} {l : ℝ} (h : ∀ x ∈ xs, DifferentiableAt ℝ (fun l => T l x) l) :
    DifferentiableAt ℝ (fun l => sampleVar (xs.map (T l))) l := by
  have hsum : ∀ (g : ℝ → ℝ → ℝ) (ys : List ℝ), (∀ x ∈ ys, DifferentiableAt ℝ (fun l => g l x) l) →
      DifferentiableAt ℝ (fun l => (ys.map (g l)).sum) l := by
    intro g ys hg
    induction ys with
    | nil => simp
    | cons a t ih =>
      simp only [List.map_cons, List.sum_cons]
      exact (hg a (by simp)).add (ih fun x hx => hg x (by simp [hx]))
  have hmean : DifferentiableAt ℝ (fun l => sampleMean (xs.map (T l))) l := by
    simp only [sampleMean, List.length_map]
    exact (hsum T xs h).div_const _
  simp only [sampleVar, List.length_map, List.map_map]
  refine (hsum (fun l x => (T l x - sampleMean (xs.map (T l))) ^ 2) xs fun x hx => ((h x hx).sub hmean).pow 2).div_const _

namespace stats

open fun_

theorem hasDerivAt_bc (l : ℝ) {x : ℝ} (hx : 0 < x) : HasDerivAt (bc l) (x ^ (l - 1)) x := by
  by_cases h : l = 0
  · have e : bc l = Real.log := funext fun y => by rw [bc, if_pos h]
    rw [e, h, zero_sub, Real.rpow_neg_one]
    exact Real.hasDerivAt_log hx.ne'
  · have e : bc l = fun y => (y ^ l - 1) / l := funext fun y => by rw [bc, if_neg h]
    rw [e]
    refine (((Real.hasDerivAt_rpow_const (Or.inl hx.ne')).sub_const 1).div_const l).congr_deriv ?_
    field_simp

theorem differentiableAt_bc (l : ℝ) {x : ℝ} (hx : 0 < x) : DifferentiableAt ℝ (fun l => bc l x) l := by
  have hd : ∀ t : ℝ, HasDerivAt (fun t : ℝ => x ^ t) (x ^ t * Real.log x) t := fun t => by
    simpa [mul_comm] using (hasDerivAt_id t).const_rpow hx
  have e : (fun l => bc l x) = dslope (fun t : ℝ => x ^ t) 0 := by
    funext t
    by_cases h : t = 0
    · rw [h, dslope_same, (hd 0).deriv, Real.rpow_zero, one_mul, bc, if_pos rfl]
    · rw [dslope_of_ne _ h, slope_def_field, bc, if_neg h, Real.rpow_zero, sub_zero]
  rw [e]
  by_cases h : l = 0
  · have ha : AnalyticAt ℝ (fun t : ℝ => x ^ t) 0 := by
      have e2 : (fun t : ℝ => x ^ t) = fun t => Real.exp (Real.log x * t) := funext fun t => Real.rpow_def_of_pos hx t
      rw [e2]; fun_prop
    obtain ⟨p, hp⟩ := ha
    rw [h]
    exact hp.has_fpower_series_dslope_fslope.differentiableAt
  · exact (differentiableAt_dslope_of_ne h).2 (hd l).differentiableAt

theorem yj_eq (l : ℝ) {x : ℝ} (hx : x ≤ 0) : yj l x = -bc (2 - l) (1 - x) := by
  rcases hx.lt_or_eq with h | rfl
  · rw [yj, if_neg (not_le.2 h)]
  · rw [yj, if_pos le_rfl]; simp

/-- the derivative of the Yeo-Johnson transformation -/
noncomputable def yjD (l x : ℝ) : ℝ := if 0 ≤ x then (1 + x) ^ (l - 1) else (1 - x) ^ (1 - l)

theorem hasDerivAt_yj (l x : ℝ) : HasDerivAt (yj l) (yjD l x) x := by
  have hr : ∀ x : ℝ, 0 ≤ x → HasDerivAt (fun x => bc l (1 + x)) ((1 + x) ^ (l - 1)) x := fun x hx =>
    (HasDerivAt.comp x (hasDerivAt_bc l (show 0 < 1 + x by linarith)) ((hasDerivAt_id' x).const_add 1)).congr_deriv (by ring)
  have hl : ∀ x : ℝ, x ≤ 0 → HasDerivAt (fun x => -bc (2 - l) (1 - x)) ((1 - x) ^ (1 - l)) x := fun x hx => by
    refine (HasDerivAt.comp x (hasDerivAt_bc (2 - l) (show 0 < 1 - x by linarith)) ((hasDerivAt_id' x).const_sub 1)).neg.congr_deriv ?_
    rw [show 2 - l - 1 = 1 - l by ring]; ring
  rcases lt_trichotomy x 0 with h | h | h
  · rw [yjD, if_neg (not_le.2 h)]
    refine (hl x h.le).congr_of_eventuallyEq ?_
    filter_upwards [eventually_lt_nhds h] with y hy
    exact yj_eq l hy.le
  · subst h
    have h1 : yjD l 0 = 1 := by simp [yjD]
    rw [h1, ← hasDerivWithinAt_univ, ← Set.Iic_union_Ici (a := (0:ℝ))]
    refine HasDerivWithinAt.union ?_ ?_
    · have := (hl 0 le_rfl).hasDerivWithinAt (s := Set.Iic 0)
      simp only [sub_zero, Real.one_rpow] at this
      exact this.congr (fun y hy => yj_eq l hy) (yj_eq l le_rfl)
    · have := (hr 0 le_rfl).hasDerivWithinAt (s := Set.Ici 0)
      simp only [add_zero, Real.one_rpow] at this
      exact this.congr (fun y hy => by rw [yj, if_pos (show (0:ℝ) ≤ y from hy)]) (by rw [yj, if_pos le_rfl])
  · rw [yjD, if_pos h.le]
    refine (hr x h.le).congr_of_eventuallyEq ?_
    filter_upwards [eventually_gt_nhds h] with y hy
    rw [yj, if_pos (le_of_lt hy)]

theorem yjD_pos (l x : ℝ) : 0 < yjD l x := by
  unfold yjD
  split_ifs with h
  · exact Real.rpow_pos_of_pos (by linarith) _
  · exact Real.rpow_pos_of_pos (by linarith) _

theorem differentiableAt_yj (l x : ℝ) : DifferentiableAt ℝ (fun l => yj l x) l := by
  by_cases h : 0 ≤ x
  · simp only [yj, if_pos h]
    exact differentiableAt_bc l (by linarith)
  · simp only [yj, if_neg h]
    exact ((differentiableAt_bc (2 - l) (show 0 < 1 - x by linarith)).comp l ((differentiableAt_id).const_sub 2)).neg

theorem sign_log1p (l x : ℝ) : Real.log (yjD l x) = (l - 1) * ((if 0 < x then 1 else if x < 0 then -1 else 0) * Real.log (1 + |x|)) := by
  rcases lt_trichotomy x 0 with h | h | h
  · rw [yjD, if_neg (not_le.2 h), if_neg (not_lt.2 h.le), if_pos h, abs_of_neg h, Real.log_rpow (by linarith)]
    ring_nf
  · subst h; simp [yjD]
  · rw [yjD, if_pos h.le, if_pos h, abs_of_pos h, Real.log_rpow (by linarith)]; ring

variable {xs : List ℝ} {l : ℝ}

theorem boxcoxLlf_eval (hn : xs ≠ []) (hx : ∀ x ∈ xs, 0 < x) (hv : 0 < sampleVar (xs.map (bc l))) : boxcoxLlf (fin l) (xs.map fin) =
    .ok (fin ((xs.map fun x => Real.log (x ^ (l - 1))).sum - xs.length / 2 * Real.log (sampleVar (xs.map (bc l))))) := by
  have hlog : (xs.map fin).mapM mp.log = .ok ((xs.map Real.log).map fin) := mapM_comp_fin fun x hm => mp.log_pos (hx x hm)
  have e : (xs.map fun x => Real.log (x ^ (l - 1))).sum = (l - 1) * (xs.map Real.log).sum := by
    rw [← List.sum_map_mul_left]
    exact congrArg List.sum (List.map_congr_left fun x hm => Real.log_rpow (hx x hm) _)
  have hd : ∃ g : ℝ → ℝ, boxcoxData (fin l) (xs.map fin) ((xs.map Real.log).map fin) = .ok ((xs.map g).map fin) ∧
      sampleVar (xs.map g) = sampleVar (xs.map (bc l)) := by
    by_cases h : l = 0
    · refine ⟨Real.log, by simp [boxcoxData, h], ?_⟩
      have : bc l = Real.log := funext fun y => by rw [bc, if_pos h]
      rw [this]
    · refine ⟨fun x => x ^ l / l, ?_, ?_⟩
      · have h1 : ¬ (fin l =. 0) := by simpa using h
        have e1 : (xs.map fin).mapM (fun t => do (← mp.power t (fin l)) /. fin l) = .ok ((xs.map fun x => x ^ l / l).map fin) :=
          mapM_comp_fin fun x hm => by rw [mp.power_pos (hx x hm), ok_bind, fin_div _ h]
        rw [boxcoxData, if_neg h1, e1]
      · have : bc l = fun x => x ^ l / l + -1 / l := funext fun y => by rw [bc, if_neg h]; ring
        rw [this, sampleVar_shift]
  obtain ⟨g, h1, h2⟩ := hd
  have hn' : xs.map g ≠ [] := by simpa using hn
  simp only [boxcoxLlf, len, List.length_map, hlog, ok_bind, h1, var_fin hn', h2, mp.log_pos hv, ofNat_def,
    fin_div _ (two_ne_zero (α := ℝ)), one_def, fin_sub, fin_mul, mp.fsum_fin, pure_eq_ok, e]

theorem yeojohnsonLlf_eval (hn : xs ≠ []) (hv : 0 < sampleVar (xs.map (yj l))) : yeojohnsonLlf (fin l) (xs.map fin) =
    .ok (fin ((xs.map fun x => Real.log (yjD l x)).sum - xs.length / 2 * Real.log (sampleVar (xs.map (yj l))))) := by
  have hy : (xs.map fin).mapM (fun t => yeojohnson t (fin l)) = .ok ((xs.map (yj l)).map fin) :=
    mapM_comp_fin fun x _ => yeojohnson_eval x l
  have ht : (xs.map fin).mapM (fun t => do return mp.sign t * (← mp.log1p (Num.abs t))) =
      .ok ((xs.map fun x => (if 0 < x then 1 else if x < 0 then -1 else 0) * Real.log (1 + |x|)).map fin) :=
    mapM_comp_fin fun x _ => by
      have hs : mp.sign (fin x) = fin (if 0 < x then 1 else if x < 0 then -1 else 0) := by
        simp only [mp.sign, one_def, zero_def]; split_ifs <;> rfl
      rw [abs_fin, mp.log1p_pos (by linarith [abs_nonneg x]), ok_bind, hs, fin_mul]; rfl
  have hn' : xs.map (yj l) ≠ [] := by simpa using hn
  have hn0 : ¬ xs.length = 0 := by simpa using hn
  have e : (xs.map fun x => Real.log (yjD l x)).sum =
      (l - 1) * (xs.map fun x => (if 0 < x then 1 else if x < 0 then -1 else 0) * Real.log (1 + |x|)).sum := by
    rw [← List.sum_map_mul_left]
    exact congrArg List.sum (List.map_congr_left fun x _ => sign_log1p l x)
  unfold yeojohnsonLlf
  rw [ht, hy, if_neg (by rwa [List.length_map])]
  simp only [len, List.length_map, ok_bind, var_fin hn', mp.log_pos hv, ofNat_def, neg_fin,
    fin_div _ (two_ne_zero (α := ℝ)), one_def, fin_sub, fin_mul, fin_add, mp.fsum_fin, pure_eq_ok, e]
  congr 2; ring

theorem sampleVar_map_pos {T : ℝ → ℝ} {s : Set ℝ} (hT : Set.InjOn T s) (hs : ∀ x ∈ xs, x ∈ s) {a b : ℝ} (ha : a ∈ xs) (hb : b ∈ xs)
    (hab : a ≠ b) : 0 < sampleVar (xs.map T) := by
  refine lt_of_le_of_ne (sampleVar_nonneg _) fun h => hab ?_
  have hn : xs.map T ≠ [] := by simpa using List.ne_nil_of_mem ha
  obtain ⟨c, hc⟩ := (sampleVar_eq_zero hn).1 h.symm
  exact hT (hs a ha) (hs b hb) ((hc _ (List.mem_map_of_mem ha)).trans (hc _ (List.mem_map_of_mem hb)).symm)

theorem bc_injOn (l : ℝ) : Set.InjOn (bc l) (Set.Ioi 0) := by
  have : StrictMonoOn (bc l) (Set.Ioi 0) := fun x hx y _ h => bc_strictMono l hx h
  exact this.injOn

theorem list_sum_differentiable {g : ℝ → ℝ → ℝ} (hg : ∀ x ∈ xs, DifferentiableAt ℝ (fun l => g l x) l) :
    DifferentiableAt ℝ (fun l => (xs.map (g l)).sum) l := by
  induction xs with
  | nil => simp
  | cons a t ih =>
    simp only [List.map_cons, List.sum_cons]
    exact (hg a (by simp)).add (ih fun x hx => hg x (by simp [hx]))

/-- `mp.diff` of the profile likelihoods is defined. -/
theorem boxcoxLlfDeriv_eval (hx : ∀ x ∈ xs, 0 < x) {a b : ℝ} (ha : a ∈ xs) (hb : b ∈ xs) (hab : a ≠ b) (l : ℝ) :
    ∃ d L, boxcoxLlfDeriv (fin l) (xs.map fin) = .ok (fin d) ∧ (∀ t, boxcoxLlf (fin t) (xs.map fin) = .ok (fin (L t))) ∧ HasDerivAt L d l := by
  have hv := fun l => sampleVar_map_pos (bc_injOn l) hx ha hb hab
  have hl := fun l => boxcoxLlf_eval (l := l) (List.ne_nil_of_mem ha) hx (hv l)
  have hd : DifferentiableAt ℝ (fun l => (xs.map fun x => Real.log (x ^ (l - 1))).sum - xs.length / 2 * Real.log (sampleVar (xs.map (bc l)))) l := by
    refine (list_sum_differentiable (g := fun l x => Real.log (x ^ (l - 1))) fun x hm => ?_).sub
      (((differentiable_sampleVar fun x hm => differentiableAt_bc l (hx x hm)).log (hv l).ne').const_mul _)
    have e : (fun l : ℝ => Real.log (x ^ (l - 1))) = fun l => (l - 1) * Real.log x := funext fun t => Real.log_rpow (hx x hm) _
    rw [e]; fun_prop
  exact ⟨_, _, mp.diff_eq (Eventually.of_forall hl) hd.hasDerivAt, hl, hd.hasDerivAt⟩

theorem yeojohnsonLlf_diff {a b : ℝ} (ha : a ∈ xs) (hb : b ∈ xs) (hab : a ≠ b) (l : ℝ) :
    ∃ d L, mp.diff (fun t => yeojohnsonLlf t (xs.map fin)) (fin l) = .ok (fin d) ∧
      (∀ t, yeojohnsonLlf (fin t) (xs.map fin) = .ok (fin (L t))) ∧ HasDerivAt L d l := by
  have hv := fun l => sampleVar_map_pos (s := Set.univ) ((yj_strictMono l).injective.injOn) (fun _ _ => trivial) ha hb hab
  have hl := fun l => yeojohnsonLlf_eval (l := l) (List.ne_nil_of_mem ha) (hv l)
  have hd : DifferentiableAt ℝ (fun l => (xs.map fun x => Real.log (yjD l x)).sum - xs.length / 2 * Real.log (sampleVar (xs.map (yj l)))) l := by
    refine (list_sum_differentiable (g := fun l x => Real.log (yjD l x)) fun x hm => ?_).sub
      (((differentiable_sampleVar fun x hm => differentiableAt_yj l x).log (hv l).ne').const_mul _)
    simp only [sign_log1p]; fun_prop
  exact ⟨_, _, mp.diff_eq (Eventually.of_forall hl) hd.hasDerivAt, hl, hd.hasDerivAt⟩

end stats

end Mpsci
