import Verif.Lemmas.Fit.Pareto
import Verif.Lemmas.Dist.Gompertz
import Mathlib.Analysis.SpecialFunctions.ExpDeriv

/-! `gompertz.nll` and the likelihood of the Gompertz distribution. -/

namespace Mpsci.gompertz

open Classical Num Spec common

variable {c s : ℝ} {xs : List ℝ}

noncomputable def l (c s x : ℝ) : ℝ := Real.log c + c + x / s - c * Real.exp (x / s) - Real.log s

theorem logpdf_l (hc : 0 < c) (hs : 0 < s) {x : ℝ} (h : 0 ≤ x) :
    logpdf (fin x) (fin c) (fin s) = .ok (fin (l c s x)) := by
  simp [logpdf, validate_ok hc hs, h.not_gt, mp.log_pos hc, mp.log_pos hs, fin_div _ hs.ne', l]

theorem bounds (h : ∀ x ∈ xs, 0 ≤ x) : validateXBounds (xs.map fin) (some (fin 0)) (some pinf) false true = .ok (xs.map fin) :=
  bounds_weak h true

theorem nll_unfold (hc : 0 < c) (hs : 0 < s) (h : ∀ x ∈ xs, 0 ≤ x) : nll (xs.map fin) (fin c) (fin s) =
    (do return -(mp.fsum (← (xs.map fin).mapM (logpdf · (fin c) (fin s))))) := by
  simp only [nll, validate_ok hc hs, ok_bind, zero_def, bounds h]

/-- The means of `exp(x/s)` and of `x exp(x/s)`. -/
noncomputable def E (xs : List ℝ) (s : ℝ) : ℝ := sampleMean (xs.map fun x => Real.exp (x / s))
noncomputable def W (xs : List ℝ) (s : ℝ) : ℝ := sampleMean (xs.map fun x => x * Real.exp (x / s))

theorem nll_eval (hn : xs ≠ []) (hc : 0 < c) (hs : 0 < s) (h : ∀ x ∈ xs, 0 ≤ x) :
    nll (xs.map fin) (fin c) (fin s) = .ok (fin (xs.length *
      (c * (E xs s - 1) - Real.log c - 1 / s * sampleMean (xs.map fun x => x) + Real.log s))) := by
  rw [nll_unfold hc hs h, mapM_logpdf fun x hx => logpdf_l hc hs (h x hx)]
  simp only [ok_bind, mp.fsum_fin, neg_fin, pure_eq_ok]
  have e : ∀ x, l c s x = ((Real.log c + c - Real.log s) + 1 / s * x) + -c * Real.exp (x / s) := fun x => by rw [l]; ring
  rw [List.map_congr_left fun x _ => e x, List.sum_map_add, sum_map_affine xs (fun x => x), sum_eq_mean hn (fun x => x),
    List.sum_map_mul_left, sum_eq_mean hn (fun x => Real.exp (x / s)), E]
  congr 2; ring

theorem E_eval (hn : xs ≠ []) (hs : s ≠ 0) :
    (do stats.mean (← (xs.map fin).mapM fun t => do return mp.exp (← t /. fin s))) = .ok (fin (E xs s)) := by
  have h : (xs.map fin).mapM (fun t => do return mp.exp (← t /. fin s)) = .ok ((xs.map fun x => Real.exp (x / s)).map fin) :=
    mapM_logpdf fun x _ => by simp only [fin_div _ hs, ok_bind, mp.exp_fin, pure_eq_ok]
  rw [h, ok_bind, mean_fin (by simpa using hn), E]

theorem W_eval (hn : xs ≠ []) (hs : s ≠ 0) :
    (do stats.mean (← (xs.map fin).mapM fun t => do return t * mp.exp (← t /. fin s))) = .ok (fin (W xs s)) := by
  have h : (xs.map fin).mapM (fun t => do return t * mp.exp (← t /. fin s)) =
      .ok ((xs.map fun x => x * Real.exp (x / s)).map fin) :=
    mapM_logpdf fun x _ => by simp only [fin_div _ hs, ok_bind, mp.exp_fin, fin_mul, pure_eq_ok]
  rw [h, ok_bind, mean_fin (by simpa using hn), W]

theorem E_gt (hs : 0 < s) (h : ∀ x ∈ xs, 0 ≤ x) (h' : ∃ x ∈ xs, x ≠ 0) : 0 < E xs s - 1 := by
  have hn : xs ≠ [] := by obtain ⟨x, hx, -⟩ := h'; exact List.ne_nil_of_mem hx
  have e : E xs s - 1 = sampleMean (xs.map fun x => -1 + 1 * Real.exp (x / s)) := by
    rw [sampleMean_affine hn, E]; ring
  rw [e]
  refine sampleMean_pos (fun x hx => ?_) ?_
  · have := Real.one_le_exp (div_nonneg (h x hx) hs.le); linarith
  · obtain ⟨x, hx, hne⟩ := h'
    refine ⟨x, hx, ?_⟩
    have := Real.one_lt_exp_iff.2 (div_pos ((h x hx).lt_of_ne' hne) hs)
    linarith

theorem cFor_eval (hn : xs ≠ []) (hs : s ≠ 0) (h : E xs s - 1 ≠ 0) :
    cFor (xs.map fin) (fin s) = .ok (fin (1 / (E xs s - 1))) := by
  have := E_eval hn hs
  simp only [pure_eq_ok] at this
  obtain ⟨a, h1, h2⟩ := ok_of_bind this
  simp only [cFor, pure_eq_ok, h1, ok_bind, h2, one_def, fin_sub, fin_div _ h]

theorem scaleEqnFixed_eval (hn : xs ≠ []) (hs : s ≠ 0) (X : ℝ) :
    mleScaleEqnFixed (xs.map fin) (fin X) (fin c) (fin s) = .ok (fin (-s - X + c * W xs s)) := by
  have := W_eval hn hs
  simp only [pure_eq_ok] at this
  obtain ⟨a, h1, h2⟩ := ok_of_bind this
  simp only [mleScaleEqnFixed, pure_eq_ok, h1, ok_bind, h2, neg_fin, fin_sub, fin_mul, fin_add]

theorem scaleEqn_eval (hn : xs ≠ []) (hs : s ≠ 0) (h : E xs s - 1 ≠ 0) (X : ℝ) :
    mleScaleEqn (xs.map fin) (fin X) (fin s) = .ok (fin (-s - X + W xs s / (E xs s - 1))) := by
  have := E_eval hn hs
  simp only [pure_eq_ok] at this
  obtain ⟨a, h1, h2⟩ := ok_of_bind this
  have := W_eval hn hs
  simp only [pure_eq_ok] at this
  obtain ⟨a', h1', h2'⟩ := ok_of_bind this
  simp only [mleScaleEqn, pure_eq_ok, h1, h1', ok_bind, h2, h2', neg_fin, fin_sub, one_def, fin_div _ h, fin_add]

/-- The likelihood for fixed `c` is convex in `1/s`. -/
theorem scale_min (hc : 0 < c) (hn : xs ≠ []) (hs : 0 < s)
    (h0 : -s - sampleMean (xs.map fun x => x) + c * W xs s = 0) {s' : ℝ} (hs' : 0 < s') :
    c * (E xs s - 1) - Real.log c - 1 / s * sampleMean (xs.map fun x => x) + Real.log s ≤
    c * (E xs s' - 1) - Real.log c - 1 / s' * sampleMean (xs.map fun x => x) + Real.log s' := by
  have h1 : E xs s + (1 / s' - 1 / s) * W xs s ≤ E xs s' := by
    have : sampleMean (xs.map fun x => Real.exp (x / s) + (1 / s' - 1 / s) * (x * Real.exp (x / s))) ≤ E xs s' := by
      refine sampleMean_le fun x _ => ?_
      have h2 := Real.add_one_le_exp (x / s' - x / s)
      have h3 : Real.exp (x / s') = Real.exp (x / s) * Real.exp (x / s' - x / s) := by rw [← Real.exp_add]; congr 1; ring
      rw [h3]
      have h4 := mul_le_mul_of_nonneg_left h2 (Real.exp_pos (x / s)).le
      calc _ = Real.exp (x / s) * (x / s' - x / s + 1) := by ring
        _ ≤ _ := h4
    rwa [sampleMean_add, sampleMean_mul] at this
  have h2 := log_add_div_min hs hs'
  have h3 := mul_le_mul_of_nonneg_left h1 hc.le
  have h4 : c * W xs s = s + sampleMean (xs.map fun x => x) := by linarith
  have h5 : c * ((1 / s' - 1 / s) * W xs s) = (1 / s' - 1 / s) * (s + sampleMean (xs.map fun x => x)) := by rw [← h4]; ring
  have h6 : (1 / s' - 1 / s) * s = s / s' - 1 := by field_simp
  rw [mul_add, h5, mul_add, h6] at h3
  linarith

/-- `(exp(x t') - 1)/t'` as an integral over `u` in `[0, x]` of `exp(u t')`, compared with tangents. -/
theorem expm1_div_tangent {t t' X x : ℝ} (ht : 0 < t) (ht' : 0 < t') (hx : 0 ≤ x) :
    Real.exp (X * (t' - t)) * ((1 - X * (t' - t)) * ((Real.exp (x * t) - 1) / t) +
      (t' - t) * (x * Real.exp (x * t) / t - (Real.exp (x * t) - 1) / t ^ 2)) ≤ (Real.exp (x * t') - 1) / t' := by
  set δ := t' - t with hδ
  let h : ℝ → ℝ := fun x => (Real.exp (x * t') - 1) / t' - Real.exp (X * δ) * ((1 - X * δ) * ((Real.exp (x * t) - 1) / t) +
      δ * (x * Real.exp (x * t) / t - (Real.exp (x * t) - 1) / t ^ 2))
  have hd : ∀ x, HasDerivAt h (Real.exp (x * t') - Real.exp (X * δ) * (Real.exp (x * t) * (1 + (x - X) * δ))) x := fun x => by
    have e1 : ∀ r : ℝ, HasDerivAt (fun x => Real.exp (x * r)) (Real.exp (x * r) * r) x := fun r =>
      (((hasDerivAt_id x).mul_const r).exp).congr_deriv (by simp)
    have e2 : HasDerivAt (fun x => x * Real.exp (x * t)) (Real.exp (x * t) + x * (Real.exp (x * t) * t)) x :=
      ((hasDerivAt_id x).mul (e1 t)).congr_deriv (by simp)
    refine ((((e1 t').sub_const 1).div_const t').sub (((((e1 t).sub_const 1).div_const t).const_mul (1 - X * δ)).add
      (((e2.div_const t).sub (((e1 t).sub_const 1).div_const (t ^ 2))).const_mul δ) |>.const_mul (Real.exp (X * δ)))).congr_deriv ?_
    field_simp; ring
  have hm : MonotoneOn h (Set.Ici 0) := by
    refine monotoneOn_of_deriv_nonneg (convex_Ici 0) (fun x _ => (hd x).continuousAt.continuousWithinAt)
      (fun x _ => (hd x).differentiableAt.differentiableWithinAt) fun x _ => ?_
    rw [(hd x).deriv]
    have h2 := Real.add_one_le_exp ((x - X) * δ)
    have h3 : Real.exp (x * t') = Real.exp (X * δ) * (Real.exp (x * t) * Real.exp ((x - X) * δ)) := by
      rw [← Real.exp_add, ← Real.exp_add]; congr 1; rw [hδ]; ring
    rw [h3]
    have := mul_le_mul_of_nonneg_left (mul_le_mul_of_nonneg_left (show 1 + (x - X) * δ ≤ Real.exp ((x - X) * δ) by linarith)
      (Real.exp_pos (x * t)).le) (Real.exp_pos (X * δ)).le
    linarith
  have := hm (Set.mem_Ici.2 le_rfl) (Set.mem_Ici.2 hx) hx
  simp only [h] at this
  simp at this
  linarith

/-- A solution of both likelihood equations maximises the likelihood. -/
theorem both_min (hx : ∀ x ∈ xs, 0 ≤ x) (h' : ∃ x ∈ xs, x ≠ 0) (hs : 0 < s)
    (h0 : -s - sampleMean (xs.map fun x => x) + W xs s / (E xs s - 1) = 0) {c' s' : ℝ} (hc' : 0 < c') (hs' : 0 < s') :
    1 / (E xs s - 1) * (E xs s - 1) - Real.log (1 / (E xs s - 1)) - 1 / s * sampleMean (xs.map fun x => x) + Real.log s ≤
    c' * (E xs s' - 1) - Real.log c' - 1 / s' * sampleMean (xs.map fun x => x) + Real.log s' := by
  have hn : xs ≠ [] := by obtain ⟨x, hx, -⟩ := h'; exact List.ne_nil_of_mem hx
  have hE := E_gt hs hx h'
  have hE' := E_gt hs' hx h'
  have h1 := mul_sub_log_min hE' hc'
  set X := sampleMean (xs.map fun x => x) with hX
  set t := 1 / s with ht
  set t' := 1 / s' with ht'
  have ht0 : 0 < t := one_div_pos.2 hs
  have ht0' : 0 < t' := one_div_pos.2 hs'
  have hst : s = 1 / t := by rw [ht, one_div_one_div]
  have h2 : Real.exp (X * (t' - t)) * ((E xs s - 1) / t) ≤ (E xs s' - 1) / t' := by
    have h3 : sampleMean (xs.map fun x => Real.exp (X * (t' - t)) * ((1 - X * (t' - t)) * ((Real.exp (x * t) - 1) / t) +
        (t' - t) * (x * Real.exp (x * t) / t - (Real.exp (x * t) - 1) / t ^ 2))) ≤
        sampleMean (xs.map fun x => (Real.exp (x * t') - 1) / t') :=
      sampleMean_le fun x hm => expm1_div_tangent ht0 ht0' (hx x hm)
    have e1 : ∀ x, Real.exp (X * (t' - t)) * ((1 - X * (t' - t)) * ((Real.exp (x * t) - 1) / t) +
        (t' - t) * (x * Real.exp (x * t) / t - (Real.exp (x * t) - 1) / t ^ 2)) =
        (-(Real.exp (X * (t' - t)) * ((1 - X * (t' - t)) / t - (t' - t) / t ^ 2)) +
          (Real.exp (X * (t' - t)) * ((1 - X * (t' - t)) / t - (t' - t) / t ^ 2)) * Real.exp (x / s)) +
        (Real.exp (X * (t' - t)) * ((t' - t) / t)) * (x * Real.exp (x / s)) := fun x => by
      rw [show x / s = x * t by rw [ht]; ring]; ring
    have e2 : ∀ x, (Real.exp (x * t') - 1) / t' = -1 / t' + 1 / t' * Real.exp (x / s') := fun x => by
      rw [show x / s' = x * t' by rw [ht']; ring]; ring
    rw [sampleMean_congr fun x _ => e1 x, sampleMean_congr fun x _ => e2 x, sampleMean_add, sampleMean_affine hn,
      sampleMean_affine hn, sampleMean_mul] at h3
    change -_ + _ * E xs s + _ * W xs s ≤ -1 / t' + 1 / t' * E xs s' at h3
    have h4 : W xs s = (E xs s - 1) * (X + 1 / t) := by
      rw [hst] at h0
      have : W xs s / (E xs s - 1) = X + 1 / t := by rw [hst]; linarith
      rw [div_eq_iff hE.ne'] at this
      rw [this]; ring
    rw [h4] at h3
    have e3 : -(Real.exp (X * (t' - t)) * ((1 - X * (t' - t)) / t - (t' - t) / t ^ 2)) +
        (Real.exp (X * (t' - t)) * ((1 - X * (t' - t)) / t - (t' - t) / t ^ 2)) * E xs s +
        (Real.exp (X * (t' - t)) * ((t' - t) / t)) * ((E xs s - 1) * (X + 1 / t)) =
        Real.exp (X * (t' - t)) * ((E xs s - 1) / t) := by field_simp; ring
    rw [e3] at h3
    calc _ ≤ _ := h3
      _ = _ := by ring
  have h5 := Real.log_le_log (by positivity) h2
  rw [Real.log_mul (Real.exp_pos _).ne' (by positivity), Real.log_exp, Real.log_div hE.ne' ht0.ne', Real.log_div hE'.ne' ht0'.ne'] at h5
  have h6 : Real.log t = -Real.log s := by rw [ht, one_div, Real.log_inv]
  have h7 : Real.log t' = -Real.log s' := by rw [ht', one_div, Real.log_inv]
  have h8 : Real.log (1 / (E xs s - 1)) = -Real.log (E xs s - 1) := by rw [one_div, Real.log_inv]
  have h9 : Real.log (1 / (E xs s' - 1)) = -Real.log (E xs s' - 1) := by rw [one_div, Real.log_inv]
  rw [one_div_mul_cancel hE.ne', h8]
  rw [mul_one_div_cancel hE'.ne', h9] at h1
  linarith

end Mpsci.gompertz
