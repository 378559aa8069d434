import Verif.Lemmas.Stats.BoxcoxMle
import Verif.Spec.Fit
import Verif.Spec.RootFinder

/-! Properties of the Box-Cox and Yeo-Johnson transforms. -/

namespace Mpsci.stats

open Classical Num fun_

/-- C18: `boxcox(x, l)` is `(x**l - 1)/l`, or `log(x)` when `l = 0`. -/
theorem boxcox_value {x : ℝ} (l : ℝ) (hx : 0 < x) : boxcox (fin x) (fin l) =
    .ok (fin (if l = 0 then Real.log x else (x ^ l - 1) / l)) := boxcox_eval l hx

/-- C18: `inv_boxcox(boxcox(x, l), l) = x`. -/
theorem invBoxcox_boxcox {x : ℝ} (l : ℝ) (hx : 0 < x) :
    (boxcox (fin x) (fin l) >>= fun y => invBoxcox y (fin l)) = .ok (fin x) := by
  rw [boxcox_eval l hx, ok_bind, invBoxcox_eval (bc_dom l hx), bcInv_bc l hx]

/-- C18: `inv_boxcox1p(boxcox1p(x, l), l) = x`. -/
theorem invBoxcox1p_boxcox1p {x : ℝ} (l : ℝ) (hx : -1 < x) :
    (boxcox1p (fin x) (fin l) >>= fun y => invBoxcox1p y (fin l)) = .ok (fin x) := by
  have h : 0 < 1 + x := by linarith
  rw [boxcox1p_eval l hx, ok_bind, invBoxcox1p_eval (bc_dom l h), bcInv_bc l h,
    add_sub_cancel_left]

/-- C18: whenever the inverses return a finite number, applying the transform gives the argument
back; and for `l ≠ 0` they raise ValueError exactly when `l*y <= -1`. -/
theorem boxcox_invBoxcox (l y : ℝ) :
    (l = 0 ∨ -1 < l * y →
      (invBoxcox (fin y) (fin l) >>= fun x => boxcox x (fin l)) = .ok (fin y) ∧
      (invBoxcox1p (fin y) (fin l) >>= fun x => boxcox1p x (fin l)) = .ok (fin y)) ∧
    (¬ (l = 0 ∨ -1 < l * y) → invBoxcox (fin y) (fin l) = .error .valueError ∧
      invBoxcox1p (fin y) (fin l) = .error .valueError) := by
  constructor
  · intro h
    have h0 := bcInv_pos h
    rw [invBoxcox_eval h, invBoxcox1p_eval h, ok_bind, ok_bind, boxcox_eval l h0,
      boxcox1p_eval l (by linarith), add_sub_cancel, bc_bcInv h]
    exact ⟨rfl, rfl⟩
  · intro h
    push Not at h
    simp [invBoxcox, invBoxcox1p, h.1, invPowm1, invPow1pm1, h.2]

/-- C18: `boxcox` and `boxcox1p` are strictly increasing in `x`. -/
theorem boxcox_strictMono (l : ℝ) {x y : ℝ} (hxy : x < y) :
    (0 < x → ∃ a b, boxcox (fin x) (fin l) = .ok (fin a) ∧ boxcox (fin y) (fin l) = .ok (fin b) ∧
      a < b) ∧
    (-1 < x → ∃ a b, boxcox1p (fin x) (fin l) = .ok (fin a) ∧
      boxcox1p (fin y) (fin l) = .ok (fin b) ∧ a < b) := by
  constructor
  · intro hx
    exact ⟨_, _, boxcox_eval l hx, boxcox_eval l (hx.trans hxy), bc_strictMono l hx hxy⟩
  · intro hx
    exact ⟨_, _, boxcox1p_eval l hx, boxcox1p_eval l (hx.trans hxy),
      bc_strictMono l (by linarith) (by linarith)⟩

/-- C18: `boxcox(1 + x, l) = boxcox1p(x, l)`. -/
theorem boxcox_one_add {x : ℝ} (l : ℝ) (hx : -1 < x) :
    boxcox (fin (1 + x)) (fin l) = boxcox1p (fin x) (fin l) := by
  rw [boxcox_eval l (by linarith), boxcox1p_eval l hx]

/-- Non-vacuity: `boxcox(3, 2) = 4`. -/
example : (0:ℝ) < 3 ∧ boxcox (fin 3) (fin 2) = .ok (fin 4) := by
  refine ⟨by norm_num, ?_⟩
  rw [boxcox_value 2 (by norm_num)]; norm_num

/-- C19: the four branches of the Yeo-Johnson transform. -/
theorem yeojohnson_value (x l : ℝ) : yeojohnson (fin x) (fin l) =
    .ok (fin (if 0 ≤ x then (if l = 0 then Real.log (1 + x) else ((1 + x) ^ l - 1) / l)
      else (if l = 2 then -Real.log (1 - x) else -((1 - x) ^ (2 - l) - 1) / (2 - l)))) := by
  rw [yeojohnson_eval, yj, bc, bc]
  have e : (2 - l = 0) ↔ l = 2 := by constructor <;> intro h <;> linarith
  simp only [e]
  split_ifs <;> first | rfl | rw [neg_div]

/-- C19: `inv_yeojohnson(yeojohnson(x, l), l) = x` for every real `x` and `l`. -/
theorem invYeojohnson_yeojohnson (x l : ℝ) :
    (yeojohnson (fin x) (fin l) >>= fun y => invYeojohnson y (fin l)) = .ok (fin x) := by
  rw [yeojohnson_eval, ok_bind, invYeojohnson_yj]

/-- C19: whatever real number the inverse returns is mapped back to its argument. -/
theorem yeojohnson_invYeojohnson (x y l : ℝ)
    (h : invYeojohnson (fin y) (fin l) = .ok (fin x)) :
    yeojohnson (fin x) (fin l) = .ok (fin y) := by
  rw [yeojohnson_eval, yj_invYeojohnson h]

/-- C19: the transform is defined on all reals and strictly increasing. -/
theorem yeojohnson_strictMono (l : ℝ) {x y : ℝ} (hxy : x < y) :
    ∃ a b, yeojohnson (fin x) (fin l) = .ok (fin a) ∧ yeojohnson (fin y) (fin l) = .ok (fin b) ∧
      a < b := ⟨_, _, yeojohnson_eval x l, yeojohnson_eval y l, yj_strictMono l hxy⟩

/-- C19: the transform preserves signs and maps 0 to 0. -/
theorem yeojohnson_sign (x l : ℝ) : ∃ a, yeojohnson (fin x) (fin l) = .ok (fin a) ∧
    (a < 0 ↔ x < 0) ∧ (a = 0 ↔ x = 0) ∧ (0 < a ↔ 0 < x) := by
  have h0 : yj l 0 = 0 := by simp [yj]
  refine ⟨_, yeojohnson_eval x l, yj_neg_iff l x, ?_, ?_⟩
  · rw [← (yj_strictMono l).injective.eq_iff (a := x), h0]
  · rw [← (yj_strictMono l).lt_iff_lt (a := 0) (b := x), h0]

/-- Non-vacuity: `yeojohnson(-3, 0) = -15/2`. -/
example : yeojohnson (fin (-3)) (fin 0) = .ok (fin (-15 / 2)) := by
  rw [yeojohnson_value]; norm_num

/-! ### The likelihood functions -/

open Spec Filter Topology

variable {xs : List ℝ}

/-- C54: for positive data that are not all equal, `boxcox_llf(lam, x)` is the profile log-likelihood of the transformation that
`boxcox(·, lam)` computes. -/
theorem boxcoxLlf_isProfile (l : ℝ) (hx : ∀ x ∈ xs, 0 < x) (hv : ∃ a ∈ xs, ∃ b ∈ xs, a ≠ b) :
    ∃ T : ℝ → ℝ, (∀ x, 0 < x → boxcox (fin x) (fin l) = .ok (fin (T x))) ∧ IsProfileLogLik T xs (boxcoxLlf (fin l) (xs.map fin)) := by
  obtain ⟨a, ha, b, hb, hab⟩ := hv
  have hp := sampleVar_map_pos (bc_injOn l) hx ha hb hab
  exact ⟨bc l, fun x h => boxcox_eval l h, isProfile_of (List.ne_nil_of_mem ha) (fun x hm => hasDerivAt_bc l (hx x hm))
    (fun x hm => Real.rpow_pos_of_pos (hx x hm) _) hp (boxcoxLlf_eval (List.ne_nil_of_mem ha) hx hp)⟩

/-- C54: for real data that are not all equal, `yeojohnson_llf(lam, x)` is the profile log-likelihood of the transformation
that `yeojohnson(·, lam)` computes. -/
theorem yeojohnsonLlf_isProfile (l : ℝ) (hv : ∃ a ∈ xs, ∃ b ∈ xs, a ≠ b) :
    ∃ T : ℝ → ℝ, (∀ x, yeojohnson (fin x) (fin l) = .ok (fin (T x))) ∧ IsProfileLogLik T xs (yeojohnsonLlf (fin l) (xs.map fin)) := by
  obtain ⟨a, ha, b, hb, hab⟩ := hv
  have hp := sampleVar_map_pos (s := Set.univ) ((yj_strictMono l).injective.injOn) (fun _ _ => trivial) ha hb hab
  exact ⟨yj l, fun x => yeojohnson_eval x l, isProfile_of (List.ne_nil_of_mem ha) (fun x _ => hasDerivAt_yj l x)
    (fun x _ => yjD_pos l x) hp (yeojohnsonLlf_eval (List.ne_nil_of_mem ha) hp)⟩

/-- C54: both likelihoods are differentiable functions of `lam`, so that the equation that `boxcox_mle` and `yeojohnson_mle`
solve makes sense for every `lam`. -/
theorem llf_deriv (l : ℝ) (hv : ∃ a ∈ xs, ∃ b ∈ xs, a ≠ b) :
    ((∀ x ∈ xs, 0 < x) → ∃ d L, boxcoxLlfDeriv (fin l) (xs.map fin) = .ok (fin d) ∧
      (∀ t, boxcoxLlf (fin t) (xs.map fin) = .ok (fin (L t))) ∧ HasDerivAt L d l) ∧
    ∃ d L, mp.diff (fun t => yeojohnsonLlf t (xs.map fin)) (fin l) = .ok (fin d) ∧
      (∀ t, yeojohnsonLlf (fin t) (xs.map fin) = .ok (fin (L t))) ∧ HasDerivAt L d l := by
  obtain ⟨a, ha, b, hb, hab⟩ := hv
  exact ⟨fun hx => boxcoxLlfDeriv_eval hx ha hb hab l, yeojohnsonLlf_diff ha hb hab l⟩

/-- C54: what `boxcox_mle` returns is a stationary point of the profile log-likelihood.  Missing: that a root is found, and
that it is the maximum. -/
theorem boxcoxMle_stationary_partial {findroot} (hf : SoundFinder findroot) {lam0 r : Num}
    (h : boxcoxMle findroot (xs.map fin) lam0 = .ok r) :
    ∃ l, r = fin l ∧ IsStationary (fun t => boxcoxLlf (fin t) (xs.map fin)) l := mp.diff_zero (hf _ _ _ h)

/-- C54: what `yeojohnson_mle` returns is a stationary point of the profile log-likelihood.  Missing: that a root is found, and
that it is the maximum. -/
theorem yeojohnsonMle_stationary_partial {findroot} (hf : SoundFinder findroot) {lam0 r : Num}
    (h : yeojohnsonMle findroot (xs.map fin) lam0 = .ok r) :
    ∃ l, r = fin l ∧ IsStationary (fun t => yeojohnsonLlf (fin t) (xs.map fin)) l := mp.diff_zero (hf _ _ _ h)

/-- C54: when all the data are equal the likelihood is unbounded, and both functions return `inf`; for positive data the one,
for any real data the other. -/
theorem llf_constant (l : ℝ) {c : ℝ} (n : ℕ) : (0 < c → boxcoxLlf (fin l) (List.replicate (n + 1) (fin c)) = .ok pinf) ∧
    yeojohnsonLlf (fin l) (List.replicate (n + 1) (fin c)) = .ok pinf := by
  have hvar : ∀ d : ℝ, var (List.replicate (n + 1) (fin d)) (fin 0) = .ok (fin 0) := fun d => by
    rw [← zero_def, ← List.map_replicate, var_fin (by simp), (sampleVar_eq_zero (by simp)).2 ⟨d, fun x hx => List.eq_of_mem_replicate hx⟩]; rfl
  have hl0 : mp.log (fin 0) = .ok ninf := by rw [← zero_def]; exact mp.log_zero
  have h2 : -((n : ℝ) + 1) / 2 < 0 := by have : (0:ℝ) ≤ n := n.cast_nonneg; linarith
  have hrep : ∀ {f : Num → M Num} {v : Num}, f (fin c) = .ok v →
      (List.replicate (n + 1) (fin c)).mapM f = .ok (List.replicate (n + 1) v) := fun {f v} h => by
    induction n + 1 with
    | zero => rfl
    | succ k ih => simp [List.replicate_succ, h, ih]
  have hsum : ∀ d : ℝ, mp.fsum (List.replicate (n + 1) (fin d)) = fin ((List.replicate (n + 1) d).sum) := fun d => by
    rw [← List.map_replicate, mp.fsum_fin]
  constructor
  · intro hc
    have hd : ∃ d : ℝ, boxcoxData (fin l) (List.replicate (n + 1) (fin c)) (List.replicate (n + 1) (fin (Real.log c))) =
        .ok (List.replicate (n + 1) (fin d)) := by
      by_cases h : l = 0
      · exact ⟨Real.log c, by simp [boxcoxData, h]⟩
      · refine ⟨c ^ l / l, ?_⟩
        rw [boxcoxData, if_neg (by simpa using h)]
        exact hrep (by rw [mp.power_pos hc, ok_bind, fin_div _ h])
    obtain ⟨d, hd⟩ := hd
    simp only [boxcoxLlf, len, List.length_replicate, hrep (mp.log_pos hc), hd, hvar, ok_bind, hsum, ofNat_def,
      fin_div _ (two_ne_zero (α := ℝ)), zero_def, hl0, one_def, fin_sub, fin_mul, pure_eq_ok, fin_mul_ninf]
    rw [scaleInf_pos (by push_cast; linarith)]; rfl
  · have ht : (List.replicate (n + 1) (fin c)).mapM (fun t => do return mp.sign t * (← mp.log1p (Num.abs t))) =
        .ok (List.replicate (n + 1) (fin ((if 0 < c then 1 else if c < 0 then -1 else 0) * Real.log (1 + |c|)))) := by
      have hs : mp.sign (fin c) = fin (if 0 < c then 1 else if c < 0 then -1 else 0) := by
        simp only [mp.sign, one_def, zero_def]; split_ifs <;> rfl
      exact hrep (by rw [abs_fin, mp.log1p_pos (by linarith [abs_nonneg c]), ok_bind, hs, fin_mul]; rfl)
    unfold yeojohnsonLlf
    rw [ht, hrep (yeojohnson_eval c l), if_neg (by simp)]
    simp only [len, List.length_replicate, hvar, ok_bind, hsum, ofNat_def, neg_fin,
      fin_div _ (two_ne_zero (α := ℝ)), zero_def, hl0, one_def, fin_sub, fin_mul, pure_eq_ok, fin_mul_ninf]
    rw [scaleInf_neg (by push_cast; linarith)]; rfl

/-- C54: no data: ValueError from `yeojohnson_llf`, a division by zero in `boxcox_llf`. -/
theorem llf_nil (l : ℝ) : yeojohnsonLlf (fin l) [] = .error .valueError ∧ boxcoxLlf (fin l) [] = .error .zeroDivision := by
  constructor
  · rfl
  · by_cases h : l = 0
    · simp [boxcoxLlf, boxcoxData, h, var, len, mp.fsum]
    · simp [boxcoxLlf, boxcoxData, h, var, len, mp.fsum]

/-- Non-vacuity: data as required; a root finder as required; and for `x = [1/2, 2]` the likelihood of `lam` is that of `-lam`,
so that a root finder that finds roots does return a value. -/
example : (∀ x ∈ [1 / 2, (2:ℝ)], 0 < x) ∧ (∃ a ∈ [1 / 2, (2:ℝ)], ∃ b ∈ [1 / 2, (2:ℝ)], a ≠ b) ∧
    ∃ findroot r, SoundFinder findroot ∧ boxcoxMle findroot ([1 / 2, (2:ℝ)].map fin) = .ok r := by
  have h1 : ∀ x ∈ [1 / 2, (2:ℝ)], 0 < x := by simp
  have h2 : ∃ a ∈ [1 / 2, (2:ℝ)], ∃ b ∈ [1 / 2, (2:ℝ)], a ≠ b := ⟨1 / 2, by simp, 2, by simp, by norm_num⟩
  obtain ⟨findroot, hf, hr⟩ := exists_soundFinder
  refine ⟨h1, h2, findroot, ?_⟩
  obtain ⟨d, L, e, hL, hd⟩ := (llf_deriv 0 h2).1 h1
  have hev : ∀ t, L (-t) = L t := by
    intro t
    have hs : ∀ t, sampleVar ([1 / 2, (2:ℝ)].map (bc t)) = ((bc t 2 - bc t (1 / 2)) / 2) ^ 2 := fun t => by
      simp [sampleVar, sampleMean]; ring
    have hb : bc (-t) 2 - bc (-t) (1 / 2) = bc t 2 - bc t (1 / 2) := by
      by_cases h : t = 0
      · simp [h]
      · have h2 : (1 / 2 : ℝ) ^ t = 2 ^ (-t) := by rw [one_div, Real.inv_rpow zero_le_two, Real.rpow_neg zero_le_two]
        have h3 : (1 / 2 : ℝ) ^ (-t) = 2 ^ t := by rw [one_div, Real.inv_rpow zero_le_two, Real.rpow_neg zero_le_two, inv_inv]
        rw [bc, bc, bc, bc, if_neg h, if_neg h, if_neg (neg_ne_zero.2 h), if_neg (neg_ne_zero.2 h), h2, h3]
        field_simp; ring
    have hl : ∀ t, L t = -Real.log (((bc t 2 - bc t (1 / 2)) / 2) ^ 2) := fun t => by
      obtain ⟨a, ha, b, hb, hab⟩ := h2
      have := (hL t).symm.trans (boxcoxLlf_eval (l := t) (by simp) h1 (sampleVar_map_pos (bc_injOn t) h1 ha hb hab))
      rw [fin.inj (Except.ok.inj this), hs t]
      simp only [List.map_cons, List.map_nil, List.sum_cons, List.sum_nil, List.length_cons, List.length_nil]
      rw [Real.log_rpow (by norm_num), Real.log_rpow (by norm_num), one_div, Real.log_inv]
      push_cast; ring
    rw [hl, hl, hb]
  have hd0 : d = 0 := by
    have h3 : HasDerivAt (fun t => L (-t)) (-d) 0 := by
      have := HasDerivAt.comp (0:ℝ) (h₂ := L) (h := fun t => -t) (by rw [neg_zero]; exact hd) (hasDerivAt_neg 0)
      exact this.congr_deriv (by ring)
    have h4 : (fun t => L (-t)) = L := funext hev
    rw [h4] at h3
    linarith [h3.unique hd]
  obtain ⟨r, h⟩ := hr (fun t => boxcoxLlfDeriv t ([1 / 2, (2:ℝ)].map fin)) 0 (fin 0) (by rw [e, hd0]; rfl)
  exact ⟨r, hf, h⟩

end Mpsci.stats
