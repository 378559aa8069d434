import Verif.Model.Fit.Nakagami
import Verif.Lemmas.Dist.Nakagami
import Verif.Lemmas.Fit.Gamma

/-! The likelihood of the Nakagami distribution. -/

namespace Mpsci.nakagami

open Classical Num Spec common Set Filter Topology

variable {nu loc s : ℝ} {xs ts : List ℝ}

theorem bounds (h : ∀ x ∈ xs, loc < x) : validateXBounds (xs.map fin) (some (fin loc)) none true false = .ok (xs.map fin) :=
  validateXBounds_ok (by rw [badLow_strict]; push Not; exact h) (by simp)
theorem bounds_bad (h : ∃ x ∈ xs, x ≤ loc) : validateXBounds (xs.map fin) (some (fin loc)) none true false = .error .valueError :=
  validateXBounds_low (badLow_strict.2 h)

theorem zs (hs : 0 < s) : (xs.map fin).mapM (fun t => (t - fin loc) /. fin s) = .ok ((xs.map fun x => (x - loc) / s).map fin) :=
  mapM_logpdf fun x _ => by rw [fin_sub, fin_div _ hs.ne']
theorem ys (hs : 0 < s) : (ts.map fin).mapM (fun t => t /. fin s) = .ok ((ts.map fun t => t / s).map fin) :=
  mapM_logpdf fun x _ => fin_div _ hs.ne'
theorem logs (h : ∀ t ∈ ts, 0 < t) : (ts.map fin).mapM mp.log = .ok ((ts.map Real.log).map fin) := gamma.logs h
theorem sqs : (ts.map fin).map (fun t => mp.ipow t 2) = (ts.map fun t => t ^ 2).map fin := by simp [Function.comp_def]
theorem invs (h : ∀ t ∈ ts, 0 < t) : (ts.map fin).mapM (fun t => fin 1 /. t) = .ok ((ts.map fun t => 1 / t).map fin) :=
  mapM_logpdf fun x hx => by rw [fin_div _ (h x hx).ne']

noncomputable def l (nu loc s x : ℝ) : ℝ :=
  Real.log 2 + nu * Real.log nu - Real.log (Real.Gamma nu) + (2 * nu - 1) * Real.log ((x - loc) / s) - nu * ((x - loc) / s) ^ 2 - Real.log s

theorem logpdf_l (hn : 0 < nu) (hs : 0 < s) {x : ℝ} (h : loc < x) :
    logpdf (fin x) (fin nu) (fin loc) (fin s) = .ok (fin (l nu loc s x)) := by
  have hz : 0 < (x - loc) / s := (affine_gt_zero hs).2 h
  rw [logpdf_pos hn hs h, f, Real.log_div (nakD.f_pos hn hn hz).ne' hs.ne', nakD.log_f hn hn hz, l]

noncomputable def L (xs : List ℝ) (nu loc s : ℝ) : ℝ :=
  -(xs.length * (Real.log 2 + nu * Real.log nu - Real.log (Real.Gamma nu) - Real.log s)
    + (2 * nu - 1) * (xs.map fun x => Real.log ((x - loc) / s)).sum - nu * (xs.map fun x => ((x - loc) / s) ^ 2).sum)

theorem nll_eval (hx : ∀ x ∈ xs, loc < x) (hn : 0 < nu) (hs : 0 < s) :
    nll (xs.map fin) (fin nu) (fin loc) (fin s) = .ok (fin (L xs nu loc s)) := by
  have hz : ∀ t ∈ xs.map (fun x => (x - loc) / s), 0 < t := by
    simp only [List.mem_map]; rintro t ⟨x, hm, rfl⟩; exact (affine_gt_zero hs).2 (hx x hm)
  simp only [nll, validate_ok hn hs, ok_bind, bounds hx, zs hs, logs hz, sqs, len_fin, mp.fsum_fin, ofNat_def, one_def, mp.log_pos two_pos,
    mp.log_pos hn, mp.log_pos hs, mp.loggamma_pos hn, fin_mul, fin_add, fin_sub, neg_fin, pure_eq_ok]
  simp only [List.map_map, Function.comp_def, L]

theorem sum_l (xs : List ℝ) : -(xs.map (l nu loc s)).sum = L xs nu loc s := by
  rw [L, neg_inj]
  induction xs with
  | nil => simp
  | cons a t ih => simp only [List.map_cons, List.sum_cons, ih, l, List.length_cons]; push_cast; ring

noncomputable def g1 (xs : List ℝ) (nu loc s : ℝ) : ℝ := -(xs.length * (1 + Real.log nu - psi nu) +
  2 * (xs.map fun x => Real.log ((x - loc) / s)).sum - (xs.map fun x => (x - loc) ^ 2).sum / s ^ 2)
noncomputable def g2 (xs : List ℝ) (nu loc s : ℝ) : ℝ := -(-(2 * nu - 1) * (xs.map fun x => 1 / (x - loc)).sum +
  2 * nu * (xs.map fun x => x - loc).sum / s ^ 2)
noncomputable def g3 (xs : List ℝ) (nu loc s : ℝ) : ℝ := -(2 * nu / s * (-xs.length + (xs.map fun x => (x - loc) ^ 2).sum / s ^ 2))

theorem grad_eval (hx : ∀ x ∈ xs, loc < x) (hn : 0 < nu) (hs : 0 < s) : nllGrad (xs.map fin) (fin nu) (fin loc) (fin s) =
    .ok (fin (g1 xs nu loc s), fin (g2 xs nu loc s), fin (g3 xs nu loc s)) := by
  have hz : ∀ t ∈ (xs.map fun x => x - loc).map (fun t => t / s), 0 < t := by
    simp only [List.mem_map]; rintro t ⟨t, ⟨x, hm, rfl⟩, rfl⟩; exact (affine_gt_zero hs).2 (hx x hm)
  have ht : ∀ t ∈ xs.map fun x => x - loc, 0 < t := by
    simp only [List.mem_map]; rintro t ⟨x, hm, rfl⟩; exact sub_pos.2 (hx x hm)
  have e : (xs.map fin).map (fun t => t - fin loc) = (xs.map fun x => x - loc).map fin := by simp [Function.comp_def]
  simp only [nllGrad, validate_ok hn hs, ok_bind, bounds hx, e, ys hs, logs hz, sqs, invs ht, len_fin, mp.fsum_fin, ofNat_def, one_def,
    mp.log_pos hn, mp.digamma_pos hn, mp.ipow_fin, fin_div _ hs.ne', fin_div _ (pow_ne_zero 2 hs.ne'), fin_mul, fin_add, fin_sub, neg_fin,
    pure_eq_ok]
  simp only [List.map_map, Function.comp_def, g1, g2, g3]

theorem sum_sq (xs : List ℝ) : (xs.map fun x => ((x - loc) / s) ^ 2).sum = (xs.map fun x => (x - loc) ^ 2).sum / s ^ 2 := by
  induction xs with
  | nil => simp
  | cons a t ih => rw [List.map_cons, List.sum_cons, ih, List.map_cons, List.sum_cons, div_pow, add_div]

theorem sum_log (hx : ∀ x ∈ xs, loc < x) (hs : 0 < s) : (xs.map fun x => Real.log ((x - loc) / s)).sum =
    (xs.map fun x => Real.log (x - loc)).sum - xs.length * Real.log s := by
  induction xs with
  | nil => simp
  | cons a t ih =>
    simp only [List.map_cons, List.sum_cons, ih fun x h => hx x (List.mem_cons_of_mem _ h), List.length_cons,
      Real.log_div (sub_pos.2 (hx a (by simp))).ne' hs.ne']
    push_cast; ring

theorem deriv_nu (hn : 0 < nu) : HasDerivAt (fun nu => L xs nu loc s) (g1 xs nu loc s) nu := by
  have h1 := ((((((hasDerivAt_id nu).mul (Real.hasDerivAt_log hn.ne')).const_add (Real.log 2)).sub (hasDerivAt_logGamma hn)).sub_const
    (Real.log s)).const_mul (xs.length:ℝ)).add ((((hasDerivAt_id nu).const_mul 2).sub_const 1).mul_const
      (xs.map fun x => Real.log ((x - loc) / s)).sum)
  have h := (h1.sub ((hasDerivAt_id nu).mul_const (xs.map fun x => ((x - loc) / s) ^ 2).sum)).neg
  refine h.congr_deriv ?_
  rw [g1, sum_sq]
  generalize (xs.map fun x => (x - loc) ^ 2).sum / s ^ 2 = A
  generalize (xs.map fun x => Real.log ((x - loc) / s)).sum = B
  simp only [id, mul_inv_cancel₀ hn.ne']
  ring

theorem deriv_loc (hx : ∀ x ∈ xs, loc < x) (hs : 0 < s) : HasDerivAt (fun loc => L xs nu loc s) (g2 xs nu loc s) loc := by
  have h1 := hasDerivAt_sum_map (xs := xs) (F := fun x loc => Real.log ((x - loc) / s)) (F' := fun x => -(1 / (x - loc))) (t := loc) fun x hm => by
    have hp := sub_pos.2 (hx x hm)
    refine ((((hasDerivAt_id loc).const_sub x).div_const s).log (div_pos hp hs).ne').congr_deriv ?_
    simp only [id]; field_simp
  have h2 := hasDerivAt_sum_map (xs := xs) (F := fun x loc => ((x - loc) / s) ^ 2) (F' := fun x => -2 / s ^ 2 * (x - loc)) (t := loc) fun x hm => by
    refine ((((hasDerivAt_id loc).const_sub x).div_const s).pow 2).congr_deriv ?_
    simp only [id]; push_cast; ring
  have h := (((h1.const_mul (2 * nu - 1)).const_add (xs.length * (Real.log 2 + nu * Real.log nu - Real.log (Real.Gamma nu) - Real.log s))).sub
    (h2.const_mul nu)).neg
  refine h.congr_deriv ?_
  have e1 : (xs.map fun x => -(1 / (x - loc))).sum = -(xs.map fun x => 1 / (x - loc)).sum := by
    have := List.sum_map_mul_left (l := xs) (f := fun x => 1 / (x - loc)) (r := -1)
    simpa only [neg_one_mul] using this
  rw [g2, List.sum_map_mul_left, e1]
  ring

theorem deriv_s (hx : ∀ x ∈ xs, loc < x) (hs : 0 < s) : HasDerivAt (fun s => L xs nu loc s) (g3 xs nu loc s) s := by
  have h1 := (((Real.hasDerivAt_log hs.ne').const_sub (Real.log 2 + nu * Real.log nu - Real.log (Real.Gamma nu))).const_mul (xs.length:ℝ)).add
    ((((Real.hasDerivAt_log hs.ne').const_mul (xs.length:ℝ)).const_sub (xs.map fun x => Real.log (x - loc)).sum).const_mul (2 * nu - 1))
  have h2 := (((hasDerivAt_pow 2 s).inv (pow_ne_zero 2 hs.ne')).const_mul (xs.map fun x => (x - loc) ^ 2).sum).const_mul nu
  have h := (h1.sub h2).neg
  refine (h.congr_deriv (g' := g3 xs nu loc s) ?_).congr_of_eventuallyEq ?_
  · rw [g3]; push_cast; field_simp; ring
  · filter_upwards [eventually_gt_nhds hs] with t ht
    simp only [L, sum_log hx ht, sum_sq, Pi.neg_apply, Pi.sub_apply, Pi.add_apply, Pi.inv_apply]
    rw [div_eq_mul_inv (List.sum _)]

/-! ### The likelihood in terms of the gamma distribution -/

/-- the squares -/
noncomputable def ws (xs : List ℝ) (loc : ℝ) : List ℝ := xs.map fun x => (x - loc) ^ 2

theorem ws_pos (hx : ∀ x ∈ xs, loc < x) : ∀ w ∈ ws xs loc, 0 < w := by
  simp only [ws, List.mem_map]; rintro w ⟨x, hm, rfl⟩; have := sub_pos.2 (hx x hm); positivity
theorem ws_ne (h : xs ≠ []) : ws xs loc ≠ [] := by simpa [ws] using h

theorem L_gamma (hx : ∀ x ∈ xs, loc < x) (hn : 0 < nu) (hs : 0 < s) : L xs nu loc s =
    gamma.L (ws xs loc) nu (s ^ 2 / nu) - (xs.length * Real.log 2 + (xs.map fun x => Real.log (x - loc)).sum) := by
  have e : ((ws xs loc).map Real.log).sum = 2 * (xs.map fun x => Real.log (x - loc)).sum := by
    rw [ws, List.map_map, ← List.sum_map_mul_left]
    exact congrArg _ (List.map_congr_left fun x _ => by simp [Real.log_pow])
  rw [L, gamma.L, sum_log hx hs, sum_sq, e, Real.log_div (by positivity) hn.ne', Real.log_pow]
  simp only [ws, List.length_map]
  push_cast
  field_simp
  ring

/-- For a given shape the best scale. -/
theorem scale_min (h0 : xs ≠ []) (hx : ∀ x ∈ xs, loc < x) (hn : 0 < nu) (hs : 0 < s) :
    L xs nu loc √(sampleMean (ws xs loc)) ≤ L xs nu loc s := by
  have hm := gamma.mean_pos (ws_ne h0) (ws_pos hx)
  rw [L_gamma hx hn (Real.sqrt_pos.2 hm), L_gamma hx hn hs, Real.sq_sqrt hm.le, gamma.L_eq (ws_ne h0), gamma.L_eq (ws_ne h0)]
  refine sub_le_sub_right (mul_le_mul_of_nonneg_left (gamma.scale_min (ws_ne h0) (ws_pos hx) hn (by positivity)) (by positivity)) _

/-- The profile likelihood. -/
theorem profile_min (h0 : xs ≠ []) (hx : ∀ x ∈ xs, loc < x) (hn : 0 < nu)
    (he : gamma.D nu = Real.log (sampleMean (ws xs loc)) - sampleMean ((ws xs loc).map Real.log)) {nu' : ℝ} (hn' : 0 < nu') :
    L xs nu loc √(sampleMean (ws xs loc)) ≤ L xs nu' loc √(sampleMean (ws xs loc)) := by
  have hm := gamma.mean_pos (ws_ne h0) (ws_pos hx)
  rw [L_gamma hx hn (Real.sqrt_pos.2 hm), L_gamma hx hn' (Real.sqrt_pos.2 hm), Real.sq_sqrt hm.le, gamma.L_eq (ws_ne h0), gamma.L_eq (ws_ne h0)]
  refine sub_le_sub_right (mul_le_mul_of_nonneg_left (gamma.profile_min (ws_ne h0) (ws_pos hx) hn he hn') (by positivity)) _

/-- For a given scale the best shape. -/
theorem shape_min (h0 : xs ≠ []) (hx : ∀ x ∈ xs, loc < x) (hs : 0 < s) (hn : 0 < nu)
    (he : gamma.D nu = sampleMean (xs.map fun x => ((x - loc) / s) ^ 2) - sampleMean (xs.map fun x => 2 * Real.log ((x - loc) / s)) - 1)
    {nu' : ℝ} (hn' : 0 < nu') : L xs nu loc s ≤ L xs nu' loc s := by
  have hl := length_pos h0
  set R := sampleMean (xs.map fun x => ((x - loc) / s) ^ 2) - sampleMean (xs.map fun x => 2 * Real.log ((x - loc) / s)) - 1 with hR
  have e1 : (xs.map fun x => ((x - loc) / s) ^ 2).sum = xs.length * sampleMean (xs.map fun x => ((x - loc) / s) ^ 2) := sum_eq_mean h0 _
  have e2 : 2 * (xs.map fun x => Real.log ((x - loc) / s)).sum = xs.length * sampleMean (xs.map fun x => 2 * Real.log ((x - loc) / s)) := by
    rw [← List.sum_map_mul_left]; exact sum_eq_mean h0 _
  refine min_of_deriv_sign (h := fun nu => L xs nu loc s) (h' := fun t => xs.length * (R - gamma.D t)) (m := nu) (fun t ht => ?_) hn ?_ ?_ hn'
  · refine (deriv_nu ht).congr_deriv ?_
    rw [g1, ← sum_sq, e1, e2, gamma.D, hR]; ring
  · intro t ht hlt
    have := gamma.D_strictAnti.antitoneOn ht hn hlt.le
    exact mul_nonpos_of_nonneg_of_nonpos hl.le (by linarith)
  · intro t hlt
    have := gamma.D_strictAnti.antitoneOn hn (hn.trans hlt) hlt.le
    exact mul_nonneg hl.le (by linarith)

/-! ### Evaluation of `mle` -/

theorem shift : (xs.map fin).map (fun t => t - fin loc) = (xs.map fun x => x - loc).map fin := by simp [Function.comp_def]

theorem mleScale_none (h0 : xs ≠ []) : mleScale ((xs.map fun x => x - loc).map fin) none = .ok (fin √(sampleMean (ws xs loc))) := by
  have hl := (length_pos h0).ne'
  have hl' : ((xs.map fun x => x - loc).length : ℝ) ≠ 0 := by simpa using hl
  have e : ((xs.map fun x => x - loc).map fun t => t ^ 2).sum / ((xs.map fun x => x - loc).length : ℝ) = sampleMean (ws xs loc) := by
    simp [sampleMean, ws, Function.comp_def]
  have h : 0 ≤ sampleMean (ws xs loc) := by
    rw [sampleMean]
    refine div_nonneg (List.sum_nonneg ?_) (by positivity)
    simp only [ws, List.mem_map]; rintro w ⟨x, -, rfl⟩; positivity
  simp only [mleScale, sqs, mp.fsum_fin, len_fin, fin_div _ hl', ok_bind, e, mp.sqrt_nonneg h]

theorem meanLog2_eval (h0 : xs ≠ []) (hx : ∀ x ∈ xs, loc < x) (hs : 0 < s) :
    meanLog2 ((xs.map fun x => x - loc).map fin) (fin s) = .ok (fin (sampleMean (xs.map fun x => 2 * Real.log ((x - loc) / s)))) := by
  have hz : ∀ t ∈ (xs.map fun x => x - loc).map (fun t => t / s), 0 < t := by
    simp only [List.mem_map]; rintro t ⟨t, ⟨x, hm, rfl⟩, rfl⟩; exact (affine_gt_zero hs).2 (hx x hm)
  have e : ∀ l : List ℝ, (l.map fin).map (fun t => 2 * t) = (l.map fun t => 2 * t).map fin := fun l => by simp [Function.comp_def]
  simp only [meanLog2, ys hs, ok_bind, logs hz, e]
  rw [mean_fin (by simpa using h0)]
  simp only [List.map_map, Function.comp_def]

theorem mleR_none (h0 : xs ≠ []) (hx : ∀ x ∈ xs, loc < x) (hs : 0 < s) : mleR ((xs.map fun x => x - loc).map fin) none (fin s) =
    .ok (fin (-sampleMean (xs.map fun x => 2 * Real.log ((x - loc) / s)))) := by
  simp only [mleR, meanLog2_eval h0 hx hs, ok_bind, neg_fin, pure_eq_ok]
theorem mleR_some (h0 : xs ≠ []) (hx : ∀ x ∈ xs, loc < x) (hs : 0 < s) (c : Num) : mleR ((xs.map fun x => x - loc).map fin) (some c) (fin s) =
    .ok (fin (sampleMean (xs.map fun x => ((x - loc) / s) ^ 2) - sampleMean (xs.map fun x => 2 * Real.log ((x - loc) / s)) - 1)) := by
  have h1 : (((xs.map fun x => x - loc).map fun t => t / s).map fun t => t ^ 2) ≠ [] := by simpa using h0
  simp only [mleR, meanLog2_eval h0 hx hs, ys hs, sqs, mean_fin h1, ok_bind, one_def, fin_sub, pure_eq_ok]
  simp only [List.map_map, Function.comp_def]

/-- the equation of the profile likelihood -/
theorem R_profile (h0 : xs ≠ []) (hx : ∀ x ∈ xs, loc < x) :
    -sampleMean (xs.map fun x => 2 * Real.log ((x - loc) / √(sampleMean (ws xs loc)))) =
    Real.log (sampleMean (ws xs loc)) - sampleMean ((ws xs loc).map Real.log) := by
  have hm := gamma.mean_pos (ws_ne h0) (ws_pos hx)
  set m := sampleMean (ws xs loc)
  have e : ∀ x ∈ xs, 2 * Real.log ((x - loc) / √m) = -Real.log m + 1 * Real.log ((x - loc) ^ 2) := fun x h => by
    rw [Real.log_div (sub_pos.2 (hx x h)).ne' (Real.sqrt_pos.2 hm).ne', Real.log_sqrt hm.le, Real.log_pow]; push_cast; ring
  rw [sampleMean_congr e, sampleMean_affine h0, ws, List.map_map]
  simp only [Function.comp_def]; ring

theorem estimateNu_ok {R : ℝ} (hR : R ≠ 0) : ∃ a : ℝ, estimateNu (fin R) = .ok (fin a) := by
  simp only [estimateNu, ge_iff, fin_le, fin_lt, one_def, ofNat_def, fin_mul, fin_div _ hR, fin_div _ (mul_ne_zero two_ne_zero hR),
    fin_div _ (mul_ne_zero (by norm_num : (3 / 2 : ℝ) ≠ 0) hR)]
  split_ifs <;> exact ⟨_, rfl⟩
theorem estimateNu_zero : estimateNu (fin 0) = .error .zeroDivision := by
  have h1 : ¬ (fin 0 ≥ fin 10) := by rw [ge_iff, fin_le]; norm_num
  have h2 : fin 0 < fin (1 / 2) := by rw [fin_lt]; norm_num
  simp only [estimateNu, h1, h2, if_true, if_false, ofNat_def, fin_mul, mul_zero, one_def, fin_div_zero]

/-- a zero of the function given to the root finder -/
theorem zero_of {nu R : ℝ} (h : mleNuFunc (fin nu) (fin R) = .ok 0) : 0 < nu ∧ gamma.D nu = R := by
  obtain ⟨a, h1, h⟩ := ok_of_bind h
  obtain ⟨b, h2, h⟩ := ok_of_bind h
  rcases lt_trichotomy nu 0 with hn | rfl | hn
  · rw [mp.log_neg hn] at h1; cases h1
  · simp [mp.digamma] at h2
  · rw [mp.log_pos hn] at h1
    rw [mp.digamma_pos hn] at h2
    cases h1; cases h2
    rw [fin_sub, fin_sub, zero_def] at h
    have := Num.fin.inj (Except.ok.inj h)
    exact ⟨hn, by rw [gamma.D]; linarith⟩

end Mpsci.nakagami
