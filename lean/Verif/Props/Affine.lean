import Verif.Spec.Affine
import Verif.Props.Fit.Laplace
import Verif.Props.Fit.Logistic
import Verif.Props.Fit.Gumbel
import Verif.Props.Fit.Gamma
import Verif.Props.Fit.Pareto
import Verif.Props.Fit.Weibull
import Verif.Props.Dist.Normal
import Verif.Props.Dist.Lognormal
import Verif.Lemmas.Stats.Basic

/-! C78: the fits follow a change of the units of the data. -/

namespace Mpsci.affine

open Classical Num Spec common

variable {xs : List ℝ} {a c : ℝ}

theorem ne_nil (hn : xs ≠ []) (a c : ℝ) : (xs.map fun x => a + c * x) ≠ [] := by simpa using hn

theorem sampleMean_aff (hn : xs ≠ []) (a c : ℝ) : sampleMean (xs.map fun x => a + c * x) = a + c * sampleMean xs := by
  have := sampleMean_affine hn (fun x => x) a c
  simpa using this

theorem sampleVar_aff (hn : xs ≠ []) (a c : ℝ) : sampleVar (xs.map fun x => a + c * x) = c ^ 2 * sampleVar xs := by
  simp only [sampleVar, sampleMean_aff hn, List.map_map, Function.comp_def, List.length_map]
  have e : ∀ x : ℝ, (a + c * x - (a + c * sampleMean xs)) ^ 2 = c ^ 2 * (x - sampleMean xs) ^ 2 := fun x => by ring
  simp only [e, List.sum_map_mul_left, mul_div_assoc]

theorem sqrt_aff (hc : 0 < c) (k v : ℝ) : Real.sqrt (k * (c ^ 2 * v)) = c * Real.sqrt (k * v) := by
  rw [show k * (c ^ 2 * v) = c ^ 2 * (k * v) by ring, Real.sqrt_mul (by positivity), Real.sqrt_sq hc.le]

theorem follows {f : List Num → M (Num × Num)} {L S : List ℝ → ℝ}
    (hf : ∀ xs : List ℝ, xs ≠ [] → f (xs.map fin) = .ok (fin (L xs), fin (S xs)))
    (hL : ∀ xs : List ℝ, xs ≠ [] → ∀ a c, 0 < c → L (xs.map fun x => a + c * x) = a + c * L xs)
    (hS : ∀ xs : List ℝ, xs ≠ [] → ∀ a c, 0 < c → S (xs.map fun x => a + c * x) = c * S xs) : FollowsUnits f := by
  intro xs hn a c hc
  refine ⟨L xs, S xs, hf xs hn, ?_⟩
  rw [rescale, hf _ (ne_nil hn a c), hL xs hn a c hc, hS xs hn a c hc]

theorem ends {f : List Num → M (Num × Num)} {L S : List ℝ → ℝ}
    (hf : ∀ xs : List ℝ, xs ≠ [] → f (xs.map fin) = .ok (fin (L xs), fin (S xs)))
    (hL : ∀ xs : List ℝ, xs ≠ [] → ∀ a c, 0 < c → L (xs.map fun x => a + c * x) = a + c * L xs)
    (hS : ∀ xs : List ℝ, xs ≠ [] → ∀ a c, 0 < c → S (xs.map fun x => a + c * x) = a + c * S xs) : EndsFollowUnits f := by
  intro xs hn a c hc
  refine ⟨L xs, S xs, hf xs hn, ?_⟩
  rw [rescale, hf _ (ne_nil hn a c), hL xs hn a c hc, hS xs hn a c hc]

/-- C78: `normal.mle` -/
theorem normal_mle_units : FollowsUnits normal.mle := by
  refine follows (L := sampleMean) (S := fun xs => Real.sqrt (1 * sampleVar xs)) (fun xs hn => ?_)
    (fun xs hn a c _ => sampleMean_aff hn a c) (fun xs hn a c hc => ?_)
  · rw [one_mul]; exact normal.mle_eq hn
  · rw [sampleVar_aff hn, sqrt_aff hc]

/-- C78: `laplace.mom` -/
theorem laplace_mom_units : FollowsUnits laplace.mom := by
  refine follows (L := sampleMean) (S := fun xs => Real.sqrt (1 / 2 * sampleVar xs)) (fun xs hn => ?_)
    (fun xs hn a c _ => sampleMean_aff hn a c) (fun xs hn a c hc => by rw [sampleVar_aff hn, sqrt_aff hc])
  have h := sampleVar_nonneg xs
  simp only [laplace.mom, mean_fin hn, mean_sq_fin hn, ok_bind, mp.ipow_fin, fin_sub, ofNat_def, fin_div _ (two_ne_zero (α := ℝ)),
      sampleVar_eq hn, mp.sqrt_nonneg (show 0 ≤ sampleVar xs / 2 by positivity), pure_eq_ok, one_div, inv_mul_eq_div]

/-- C78: `logistic.mom` -/
theorem logistic_mom_units : FollowsUnits logistic.mom := by
  refine follows (L := sampleMean) (S := fun xs => Real.sqrt (3 * sampleVar xs) / Real.pi) (fun xs hn => ?_)
    (fun xs hn a c _ => sampleMean_aff hn a c) (fun xs hn a c hc => by rw [sampleVar_aff hn, sqrt_aff hc, mul_div_assoc])
  have h := sampleVar_nonneg xs
  simp only [logistic.mom, mean_fin hn, mean_sq_fin hn, ok_bind, mp.ipow_fin, fin_sub, ofNat_def, fin_mul,
      sampleVar_eq hn, mp.sqrt_nonneg (show 0 ≤ 3 * sampleVar xs by positivity), mp.pi_def, fin_div _ Real.pi_ne_zero, pure_eq_ok]

/-- C78: `gumbel_max.mom` -/
theorem gumbel_max_mom_units : FollowsUnits gumbel_max.mom := by
  refine follows (L := fun xs => sampleMean xs - Real.sqrt (6 * sampleVar xs) / Real.pi * Real.eulerMascheroniConstant)
    (S := fun xs => Real.sqrt (6 * sampleVar xs) / Real.pi) (fun xs hn => ?_)
    (fun xs hn a c hc => by simp only [sampleMean_aff hn, sampleVar_aff hn, sqrt_aff hc]; ring)
    (fun xs hn a c hc => by rw [sampleVar_aff hn, sqrt_aff hc, mul_div_assoc])
  have h := sampleVar_nonneg xs
  simp only [gumbel_max.mom, mean_fin hn, mean_sq_fin hn, ok_bind, mp.ipow_fin, fin_sub, ofNat_def, fin_mul,
      sampleVar_eq hn, mp.sqrt_nonneg (show 0 ≤ 6 * sampleVar xs by positivity), mp.pi_def, fin_div _ Real.pi_ne_zero, mp.euler, pure_eq_ok]

/-- C78: `gumbel_min.mom` -/
theorem gumbel_min_mom_units : FollowsUnits gumbel_min.mom := by
  refine follows (L := fun xs => sampleMean xs + Real.sqrt (6 * sampleVar xs) / Real.pi * Real.eulerMascheroniConstant)
    (S := fun xs => Real.sqrt (6 * sampleVar xs) / Real.pi) (fun xs hn => ?_)
    (fun xs hn a c hc => by simp only [sampleMean_aff hn, sampleVar_aff hn, sqrt_aff hc]; ring)
    (fun xs hn a c hc => by rw [sampleVar_aff hn, sqrt_aff hc, mul_div_assoc])
  have h := sampleVar_nonneg xs
  simp only [gumbel_min.mom, mean_fin hn, mean_sq_fin hn, ok_bind, mp.ipow_fin, fin_sub, ofNat_def, fin_mul, fin_add,
      sampleVar_eq hn, mp.sqrt_nonneg (show 0 ≤ 6 * sampleVar xs by positivity), mp.pi_def, fin_div _ Real.pi_ne_zero, mp.euler, pure_eq_ok]

/-- C78: `uniform.mom` -/
theorem uniform_mom_units : EndsFollowUnits uniform.mom := by
  refine ends (L := fun xs => sampleMean xs - Real.sqrt (3 * sampleVar xs))
    (S := fun xs => sampleMean xs + Real.sqrt (3 * sampleVar xs)) (fun xs hn => ?_)
    (fun xs hn a c hc => by simp only [sampleMean_aff hn, sampleVar_aff hn, sqrt_aff hc]; ring)
    (fun xs hn a c hc => by simp only [sampleMean_aff hn, sampleVar_aff hn, sqrt_aff hc]; ring)
  have h := sampleVar_nonneg xs
  simp only [uniform.mom, mean_fin hn, mean_sq_fin hn, ok_bind, mp.ipow_fin, fin_sub, ofNat_def, fin_mul, fin_add,
      sampleVar_eq hn, mp.sqrt_nonneg (show 0 ≤ 3 * sampleVar xs by positivity), pure_eq_ok]

theorem min_aff (hn : xs ≠ []) (a : ℝ) (hc : 0 < c) : ∃ m ∈ xs, (∀ x ∈ xs, m ≤ x) ∧ py.min (xs.map fin) = .ok (fin m) ∧
    py.min ((xs.map fun x => a + c * x).map fin) = .ok (fin (a + c * m)) := by
  obtain ⟨m, h1, h2, h3⟩ := py.min_fin hn
  obtain ⟨m', h4, h5, h6⟩ := py.min_fin (ne_nil hn a c)
  obtain ⟨y, hy, rfl⟩ := List.mem_map.1 h4
  refine ⟨m, h1, h2, h3, ?_⟩
  have h7 := h5 _ (List.mem_map_of_mem h1)
  have h8 := mul_le_mul_of_nonneg_left (h2 y hy) hc.le
  rw [h6, show a + c * y = a + c * m by linarith]

theorem max_aff (hn : xs ≠ []) (a : ℝ) (hc : 0 < c) : ∃ m ∈ xs, (∀ x ∈ xs, x ≤ m) ∧ py.max (xs.map fin) = .ok (fin m) ∧
    py.max ((xs.map fun x => a + c * x).map fin) = .ok (fin (a + c * m)) := by
  obtain ⟨m, h1, h2, h3⟩ := py.max_fin hn
  obtain ⟨m', h4, h5, h6⟩ := py.max_fin (ne_nil hn a c)
  obtain ⟨y, hy, rfl⟩ := List.mem_map.1 h4
  refine ⟨m, h1, h2, h3, ?_⟩
  have h7 := h5 _ (List.mem_map_of_mem h1)
  have h8 := mul_le_mul_of_nonneg_left (h2 y hy) hc.le
  rw [h6, show a + c * y = a + c * m by linarith]

/-- C78: `uniform.mle` -/
theorem uniform_mle_units : EndsFollowUnits uniform.mle := by
  intro xs hn a c hc
  obtain ⟨l, -, -, h1, h2⟩ := min_aff hn a hc
  obtain ⟨r, -, -, h3, h4⟩ := max_aff hn a hc
  refine ⟨l, r, ?_, ?_⟩
  · simp only [uniform.mle, h1, h3, ok_bind, pure_eq_ok]
  · simp only [uniform.mle, rescale, h2, h4, ok_bind, pure_eq_ok]

theorem sorted_aff (xs : List ℝ) (a : ℝ) (hc : 0 < c) : (xs.map fun x => a + c * x).insertionSort (fun s t => s ≤ t) =
    (xs.insertionSort fun s t => s ≤ t).map fun x => a + c * x := by
  refine (List.map_insertionSort (fun s t : ℝ => s ≤ t) (fun s t : ℝ => s ≤ t) _ xs fun x _ y _ => ?_).symm
  constructor
  · intro h; have := mul_le_mul_of_nonneg_left h hc.le; linarith
  · intro h; exact le_of_mul_le_mul_left (by linarith) hc

/-- The median follows. -/
theorem mleLoc_aff (hn : xs ≠ []) (a : ℝ) (hc : 0 < c) : ∃ m : ℝ, laplace.mleLoc (xs.map fin) = .ok (fin m) ∧
    laplace.mleLoc ((xs.map fun x => a + c * x).map fin) = .ok (fin (a + c * m)) := by
  have hl0 : 0 < xs.length := List.length_pos_iff.2 hn
  unfold laplace.mleLoc
  rw [py.sorted_fin, py.sorted_fin, sorted_aff xs a hc]
  set s := xs.insertionSort (fun a b => a ≤ b) with hs
  have hp : s.Perm xs := List.perm_insertionSort _ _
  have hl : s.length = xs.length := hp.length_eq
  rw [← hl] at hl0
  simp only [List.length_map]
  have item : ∀ i : ℕ, (h : i < s.length) → py.item (s.map fin) (i : ℤ) = .ok (fin s[i]) := fun i h => by
    rw [py.item_nat (by simpa using h)]; simp
  have item' : ∀ i : ℕ, (h : i < s.length) → py.item ((s.map fun x => a + c * x).map fin) (i : ℤ) = .ok (fin (a + c * s[i])) := fun i h => by
    rw [py.item_nat (by simpa using h)]; simp
  rcases Nat.even_or_odd' s.length with ⟨k, hk | hk⟩
  · have h1 : ¬ ((s.length : ℤ) % 2 = 1) := by omega
    have h2 : (s.length : ℤ) / 2 = (k : ℤ) := by omega
    have h3 : (k : ℤ) - 1 = ((k - 1 : ℕ) : ℤ) := by omega
    have hk1 : k - 1 < s.length := by omega
    have hk2 : k < s.length := by omega
    refine ⟨(s[k - 1] + s[k]) / 2, ?_, ?_⟩
    · simp only [h1, if_false, h2, h3, item _ hk1, item _ hk2, ok_bind, fin_add, ofNat_def,
        fin_div _ (two_ne_zero (α := ℝ))]
    · simp only [h1, if_false, h2, h3, item' _ hk1, item' _ hk2, ok_bind, fin_add, ofNat_def,
        fin_div _ (two_ne_zero (α := ℝ))]
      congr 2; ring
  · have h1 : ((s.length : ℤ) % 2 = 1) := by omega
    have h2 : (s.length : ℤ) / 2 = (k : ℤ) := by omega
    have hk2 : k < s.length := by omega
    refine ⟨s[k], ?_, ?_⟩
    · simp only [h1, if_true, h2, item _ hk2]
    · simp only [h1, if_true, h2, item' _ hk2]

theorem meanAbs_aff (hn : xs ≠ []) (a : ℝ) (hc : 0 < c) (m : ℝ) : ∃ d : ℝ,
    stats.mean ((xs.map fin).map fun t => Num.abs (t - fin m)) = .ok (fin d) ∧
    stats.mean (((xs.map fun x => a + c * x).map fin).map fun t => Num.abs (t - fin (a + c * m))) = .ok (fin (c * d)) := by
  refine ⟨sampleMean (xs.map fun x => |x - m|), ?_, ?_⟩
  · simp only [List.map_map, Function.comp_def, fin_sub, Num.abs]
    exact mean_map hn fun x => |x - m|
  · simp only [List.map_map, Function.comp_def, fin_sub, Num.abs]
    have e : ∀ x, |a + c * x - (a + c * m)| = c * |x - m| := fun x => by
      rw [show a + c * x - (a + c * m) = c * (x - m) by ring, abs_mul, abs_of_pos hc]
    simp only [e]
    rw [mean_map hn fun x => c * |x - m|, sampleMean_mul]

/-- C78: `laplace.mle` -/
theorem laplace_mle_units : FollowsUnits fun x => laplace.mle x none none := by
  intro xs hn a c hc
  obtain ⟨m, h1, h2⟩ := mleLoc_aff hn a hc
  obtain ⟨d, h3, h4⟩ := meanAbs_aff hn a hc m
  refine ⟨m, d, ?_, ?_⟩
  · simp only [laplace.mle, h1, ok_bind, h3, pure_eq_ok]
  · simp only [laplace.mle, rescale, h2, ok_bind, h4, pure_eq_ok]

/-- C78: `laplace.mle` with a fixed location, which follows too -/
theorem laplace_mle_units_loc (hn : xs ≠ []) (a : ℝ) (hc : 0 < c) (loc : ℝ) : ∃ scale : ℝ,
    laplace.mle (xs.map fin) (some (fin loc)) none = .ok (fin loc, fin scale) ∧
    laplace.mle (rescale a c xs) (some (fin (a + c * loc))) none = .ok (fin (a + c * loc), fin (c * scale)) := by
  obtain ⟨d, h3, h4⟩ := meanAbs_aff hn a hc loc
  refine ⟨d, ?_, ?_⟩
  · simp only [laplace.mle, ok_bind, h3, pure_eq_ok]
  · simp only [laplace.mle, rescale, ok_bind, h4, pure_eq_ok]

/-- C78: `laplace.mle` with a fixed scale, which follows too -/
theorem laplace_mle_units_scale (hn : xs ≠ []) (a : ℝ) (hc : 0 < c) {scale : ℝ} (hs : 0 < scale) : ∃ loc : ℝ,
    laplace.mle (xs.map fin) none (some (fin scale)) = .ok (fin loc, fin scale) ∧
    laplace.mle (rescale a c xs) none (some (fin (c * scale))) = .ok (fin (a + c * loc), fin (c * scale)) := by
  obtain ⟨m, h1, h2⟩ := mleLoc_aff hn a hc
  have h3 : ¬ fin scale ≤ 0 := by simpa using hs
  have h4 : ¬ fin (c * scale) ≤ 0 := by rw [zero_def, fin_le]; exact not_le.2 (mul_pos hc hs)
  refine ⟨m, ?_, ?_⟩
  · simp only [laplace.mle, h1, ok_bind, h3, if_false, pure_eq_ok]
  · simp only [laplace.mle, rescale, h2, ok_bind, h4, if_false, pure_eq_ok]

theorem pos_aff (hx : ∀ x ∈ xs, 0 < x) (hc : 0 < c) : ∀ y ∈ xs.map (fun x => 0 + c * x), 0 < y := by
  intro y hy
  obtain ⟨x, h, rfl⟩ := List.mem_map.1 hy
  have := mul_pos hc (hx x h)
  linarith

theorem log_aff (hx : ∀ x ∈ xs, 0 < x) (hc : 0 < c) : (xs.map fun x => 0 + c * x).map Real.log =
    (xs.map Real.log).map fun t => Real.log c + 1 * t := by
  rw [List.map_map, List.map_map]
  refine List.map_congr_left fun x h => ?_
  simp only [Function.comp, zero_add, one_mul, Real.log_mul hc.ne' (hx x h).ne']

/-- C78: `lognormal.mle`: in a unit `c` times smaller, `mu` becomes `mu + log c` and `sigma` stays. -/
theorem lognormal_mle_units (hn : xs ≠ []) (hx : ∀ x ∈ xs, 0 < x) (hc : 0 < c) : ∃ mu sigma : ℝ,
    lognormal.mle (xs.map fin) = .ok (fin mu, fin sigma) ∧
    lognormal.mle (rescale 0 c xs) = .ok (fin (mu + Real.log c), fin sigma) := by
  have hl : xs.map Real.log ≠ [] := by simpa using hn
  refine ⟨_, _, lognormal.mle_eval hn hx, ?_⟩
  rw [rescale, lognormal.mle_eval (ne_nil hn 0 c) (pos_aff hx hc), log_aff hx hc, sampleMean_aff hl, sampleVar_aff hl]
  congr 3 <;> ring_nf

/-- C78: `lognormal.mom` -/
theorem lognormal_mom_units (hn : xs ≠ []) (hx : ∀ x ∈ xs, 0 < x) (hc : 0 < c) : ∃ mu sigma : ℝ,
    lognormal.mom (xs.map fin) = .ok (fin mu, fin sigma) ∧
    lognormal.mom (rescale 0 c xs) = .ok (fin (mu + Real.log c), fin sigma) := by
  obtain ⟨m, s, h, ⟨h0, -⟩, h2, h3⟩ := lognormal.mom_eval hn hx
  obtain ⟨m', s', h', ⟨h0', -⟩, h2', h3'⟩ := lognormal.mom_eval (ne_nil hn 0 c) (pos_aff hx hc)
  rw [sampleMean_aff hn, ← h2, zero_add, ← Real.exp_log hc, ← Real.exp_add, Real.exp_eq_exp] at h2'
  rw [sampleVar_aff hn, ← h3] at h3'
  have e1 : Real.exp (2 * m' + s' ^ 2) = c ^ 2 * Real.exp (2 * m + s ^ 2) := by
    rw [show 2 * m' + s' ^ 2 = 2 * Real.log c + (2 * m + s ^ 2) by linarith, Real.exp_add, two_mul, Real.exp_add,
      Real.exp_log hc]; ring
  rw [e1] at h3'
  have e2 : (Real.exp (s' ^ 2) - 1) = (Real.exp (s ^ 2) - 1) := by
    have hne : c ^ 2 * Real.exp (2 * m + s ^ 2) ≠ 0 := by positivity
    refine mul_right_cancel₀ hne ?_
    rw [h3']; ring
  have e3 : s' = s := by
    have : s' ^ 2 = s ^ 2 := Real.exp_injective (by linarith)
    exact (pow_left_inj₀ h0' h0 two_ne_zero).1 this
  subst e3
  refine ⟨m, s', h, ?_⟩
  rw [rescale, h', show m' = m + Real.log c by linarith]

/-- C78: `gamma.mom`: in other units the shape stays and the scale follows; all data equal are excluded, where
the code divides by 0. -/
theorem gamma_mom_units (hx : ∀ x ∈ xs, 0 < x) (hv : ¬ ∃ k, ∀ x ∈ xs, x = k) (hc : 0 < c) : ∃ k scale : ℝ,
    gamma.mom (xs.map fin) = .ok (fin k, fin scale) ∧ gamma.mom (rescale 0 c xs) = .ok (fin k, fin (c * scale)) := by
  have hn : xs ≠ [] := by rintro rfl; exact hv ⟨0, by simp⟩
  have ev : ∀ ys : List ℝ, ys ≠ [] → 0 < sampleMean ys → 0 < sampleVar ys →
      gamma.mom (ys.map fin) = .ok (fin (sampleMean ys ^ 2 / sampleVar ys), fin (sampleVar ys / sampleMean ys)) := by
    intro xs hn hm h0
    have hvar : stats.var (xs.map fin) = .ok (fin (sampleVar xs)) := by
      have hl := (length_pos hn).ne'
      simp only [stats.var, mp.fsum_fin, len_fin, fin_div _ hl, ok_bind, zero_def, fin_sub, sub_zero, List.map_map, Function.comp_def, fin_mul]
      rw [mp.fsum_map_fin, fin_div _ hl, sampleVar]
      simp only [sampleMean, sq]
    simp only [gamma.mom, mean_fin hn, hvar, ok_bind, mp.ipow_fin, fin_div _ h0.ne', fin_div _ hm.ne', pure_eq_ok]
  have h0 : 0 < sampleVar xs := (sampleVar_nonneg xs).lt_of_ne' (mt (sampleVar_eq_zero hn).1 hv)
  have hm := gamma.mean_pos hn hx
  refine ⟨_, _, ev xs hn hm h0, ?_⟩
  rw [rescale, ev _ (ne_nil hn 0 c) (gamma.mean_pos (ne_nil hn 0 c) (pos_aff hx hc)) (by rw [sampleVar_aff hn]; positivity),
    sampleMean_aff hn, sampleVar_aff hn]
  congr 3 <;> field_simp <;> ring

/-- C78: `gamma.mle` after any number of Newton steps; the code makes 10. -/
theorem gamma_mle_units {findroot : (Num → M Num) → Num → Num → M Num} (hx : ∀ x ∈ xs, 0 < x) (hv : ¬ ∃ k, ∀ x ∈ xs, x = k)
    (hc : 0 < c) (steps : ℕ) : ∃ k scale : ℝ,
    gamma.mle findroot (xs.map fin) none none steps = .ok (fin k, fin scale) ∧
    gamma.mle findroot (rescale 0 c xs) none none steps = .ok (fin k, fin (c * scale)) := by
  have hn : xs ≠ [] := by rintro rfl; exact hv ⟨0, by simp⟩
  have ev : ∀ ys : List ℝ, ys ≠ [] → (∀ x ∈ ys, 0 < x) → 0 < Real.log (sampleMean ys) - sampleMean (ys.map Real.log) →
      gamma.mle findroot (ys.map fin) none none steps =
        .ok (fin (gamma.seq (Real.log (sampleMean ys) - sampleMean (ys.map Real.log)) (gamma.start (Real.log (sampleMean ys) - sampleMean (ys.map Real.log))) steps),
          fin (sampleMean ys / gamma.seq (Real.log (sampleMean ys) - sampleMean (ys.map Real.log)) (gamma.start (Real.log (sampleMean ys) - sampleMean (ys.map Real.log))) steps)) := by
    intro ys hn hx hc
    obtain ⟨k, hk, he⟩ := gamma.D_root hc
    obtain ⟨hpos, -⟩ := gamma.seq_tendsto hc hk he
    obtain ⟨m1, m2⟩ := gamma.means hn hx
    simp only [gamma.mle, gamma.logs hx, ok_bind, m1, m2, gamma.mleK_eval (gamma.mean_pos hn hx) hc, fin_div _ (hpos steps).ne', pure_eq_ok]
  have h1 : 0 < Real.log (sampleMean xs) - sampleMean (xs.map Real.log) := sub_pos.2 (gamma.log_mean_lt hx hv)
  have e : Real.log (sampleMean (xs.map fun x => 0 + c * x)) - sampleMean ((xs.map fun x => 0 + c * x).map Real.log) =
      Real.log (sampleMean xs) - sampleMean (xs.map Real.log) := by
    have hl : xs.map Real.log ≠ [] := by simpa using hn
    rw [log_aff hx hc, sampleMean_aff hl, sampleMean_aff hn, zero_add,
      Real.log_mul hc.ne' (gamma.mean_pos hn hx).ne']; ring
  refine ⟨_, _, ev xs hn hx h1, ?_⟩
  rw [rescale, ev _ (ne_nil hn 0 c) (pos_aff hx hc) (by rw [e]; exact h1), e, sampleMean_aff hn, zero_add, mul_div_assoc]

/-- C78: `gamma.mle` with a fixed shape -/
theorem gamma_mle_units_shape {findroot : (Num → M Num) → Num → Num → M Num} (hn : xs ≠ []) (hx : ∀ x ∈ xs, 0 < x)
    (hc : 0 < c) {k : ℝ} (hk : 0 < k) (steps : ℕ) : ∃ scale : ℝ,
    gamma.mle findroot (xs.map fin) (some (fin k)) none steps = .ok (fin k, fin scale) ∧
    gamma.mle findroot (rescale 0 c xs) (some (fin k)) none steps = .ok (fin k, fin (c * scale)) := by
  obtain ⟨m1, m2⟩ := gamma.means hn hx
  obtain ⟨m3, m4⟩ := gamma.means (ne_nil hn 0 c) (pos_aff hx hc)
  refine ⟨sampleMean xs / k, ?_, ?_⟩
  · simp only [gamma.mle, gamma.logs hx, ok_bind, m1, m2, fin_div _ hk.ne', pure_eq_ok]
  · simp only [rescale, gamma.mle, gamma.logs (pos_aff hx hc), ok_bind, m3, m4, fin_div _ hk.ne', pure_eq_ok, sampleMean_aff hn]
    rw [zero_add, mul_div_assoc]

/-- C78: `gamma.mle` with a fixed scale, which follows; for any root finder -/
theorem gamma_mle_units_scale {findroot : (Num → M Num) → Num → Num → M Num} (hn : xs ≠ []) (hx : ∀ x ∈ xs, 0 < x)
    (hc : 0 < c) {scale : ℝ} (hs : 0 < scale) (steps : ℕ) {k s : Num}
    (h : gamma.mle findroot (xs.map fin) none (some (fin scale)) steps = .ok (k, s)) :
    s = fin scale ∧ gamma.mle findroot (rescale 0 c xs) none (some (fin (c * scale))) steps = .ok (k, fin (c * scale)) := by
  obtain ⟨m1, m2⟩ := gamma.means hn hx
  obtain ⟨m3, m4⟩ := gamma.means (ne_nil hn 0 c) (pos_aff hx hc)
  have hl : xs.map Real.log ≠ [] := by simpa using hn
  simp only [gamma.mle, gamma.logs hx, ok_bind, m1, m2, mp.log_pos hs, fin_sub] at h
  obtain ⟨v, h1, h2⟩ := ok_of_bind h
  obtain ⟨rfl, rfl⟩ := Prod.mk.inj (Except.ok.inj h2)
  refine ⟨rfl, ?_⟩
  have e : Real.log c + 1 * sampleMean (xs.map Real.log) - Real.log (c * scale) = sampleMean (xs.map Real.log) - Real.log scale := by
    rw [Real.log_mul hc.ne' hs.ne']; ring
  simp only [rescale, gamma.mle, gamma.logs (pos_aff hx hc), ok_bind, m3, m4, mp.log_pos (mul_pos hc hs), fin_sub]
  rw [log_aff hx hc, sampleMean_aff hl, e, h1]; rfl

variable {findroot : (Num → M Num) → Num → M Num} {findroot2 : (Num → Num → M (Num × Num)) → Num × Num → M (Num × Num)}

theorem meanLog_aff (hn : xs ≠ []) (hc : 0 < c) {loc : ℝ} (hx : ∀ x ∈ xs, loc < x) :
    sampleMean ((xs.map fun x => a + c * x).map fun y => Real.log (y - (a + c * loc))) =
      Real.log c + sampleMean (xs.map fun x => Real.log (x - loc)) := by
  have e := sampleMean_affine hn (fun x => Real.log (x - loc)) (Real.log c) 1
  rw [one_mul] at e
  rw [List.map_map, ← e]
  refine sampleMean_congr fun x h => ?_
  have := hx x h
  simp only [Function.comp, one_mul]
  rw [← Real.log_mul hc.ne' (by linarith), show a + c * x - (a + c * loc) = c * (x - loc) by ring]

theorem lt_aff (hc : 0 < c) {loc : ℝ} (hx : ∀ x ∈ xs, loc < x) : ∀ y ∈ xs.map (fun x => a + c * x), a + c * loc < y := by
  intro y hy
  obtain ⟨x, h, rfl⟩ := List.mem_map.1 hy
  have := mul_lt_mul_of_pos_left (hx x h) hc
  linarith

/-- C78: `pareto.mle` with a fixed location below the data, which follows: the shape stays, the scale follows. -/
theorem pareto_mle_units_loc (hv : ¬ ∃ k, ∀ x ∈ xs, x = k) (a : ℝ) (hc : 0 < c) {loc : ℝ} (hx : ∀ x ∈ xs, loc < x) : ∃ b scale : ℝ,
    pareto.mle findroot findroot2 (xs.map fin) .none (.fixed (fin loc)) .none = .ok (fin b, fin loc, fin scale) ∧
    pareto.mle findroot findroot2 (rescale a c xs) .none (.fixed (fin (a + c * loc))) .none =
      .ok (fin b, fin (a + c * loc), fin (c * scale)) := by
  have hn := list_nonempty hv
  obtain ⟨m, hm, hm', em, em2⟩ := min_aff hn a hc
  have hs : 0 < m - loc := by have := hx m hm; linarith
  have hge : ∀ x ∈ xs, loc + (m - loc) ≤ x := fun x h => by have := hm' x h; linarith
  have hA := pareto.meanLog_gt hv hs hge
  have hs2 : a + c * m - (a + c * loc) = c * (m - loc) := by ring
  have hA2 : Real.log c + sampleMean (xs.map fun x => Real.log (x - loc)) - Real.log (c * (m - loc)) =
      sampleMean (xs.map fun x => Real.log (x - loc)) - Real.log (m - loc) := by
    rw [Real.log_mul hc.ne' hs.ne']; ring
  refine ⟨1 / (sampleMean (xs.map fun x => Real.log (x - loc)) - Real.log (m - loc)), m - loc, ?_, ?_⟩
  · simp only [pareto.mle, bounds_weak fun x h => (hx x h).le, ok_bind, em, fin_sub, pareto.sumLog_eval hx, pareto.fsum_mean hn, mp.log_pos hs,
      one_def, fin_div _ hA.ne', pure_eq_ok]
  · simp only [rescale, pareto.mle, bounds_weak fun x h => (lt_aff (a := a) hc hx x h).le, ok_bind, em2, fin_sub,
      pareto.sumLog_eval (lt_aff (a := a) hc hx), pareto.fsum_mean (ne_nil hn a c), hs2, mp.log_pos (mul_pos hc hs),
      one_def, meanLog_aff hn hc hx, hA2, fin_div _ hA.ne', pure_eq_ok]

/-- C78: `pareto.mle` with a fixed scale, which follows: the shape stays, the location follows. -/
theorem pareto_mle_units_scale (hv : ¬ ∃ k, ∀ x ∈ xs, x = k) (a : ℝ) (hc : 0 < c) {s : ℝ} (hs : 0 < s) : ∃ b loc : ℝ,
    pareto.mle findroot findroot2 (xs.map fin) .none .none (.fixed (fin s)) = .ok (fin b, fin loc, fin s) ∧
    pareto.mle findroot findroot2 (rescale a c xs) .none .none (.fixed (fin (c * s))) =
      .ok (fin b, fin (a + c * loc), fin (c * s)) := by
  have hn := list_nonempty hv
  obtain ⟨m, hm, hm', em, em2⟩ := min_aff hn a hc
  have hge : ∀ x ∈ xs, m - s + s ≤ x := fun x h => by have := hm' x h; linarith
  have hgt : ∀ x ∈ xs, m - s < x := fun x h => by have := hm' x h; linarith
  have hA := pareto.meanLog_gt hv hs hge
  have hs2 : a + c * m - c * s = a + c * (m - s) := by ring
  have hA2 : Real.log c + sampleMean (xs.map fun x => Real.log (x - (m - s))) - Real.log (c * s) =
      sampleMean (xs.map fun x => Real.log (x - (m - s))) - Real.log s := by
    rw [Real.log_mul hc.ne' hs.ne']; ring
  refine ⟨1 / (sampleMean (xs.map fun x => Real.log (x - (m - s))) - Real.log s), m - s, ?_, ?_⟩
  · simp only [pareto.mle, pareto.mle.freeB, one_def, pareto.validate_ok one_pos hs, validateXBounds_all, ok_bind, em, fin_sub, pareto.sumLog_eval hgt,
      pareto.fsum_mean hn, mp.log_pos hs, fin_div _ hA.ne', pure_eq_ok]
  · simp only [rescale, pareto.mle, pareto.mle.freeB, one_def, pareto.validate_ok one_pos (mul_pos hc hs), validateXBounds_all, ok_bind, em2, fin_sub,
      hs2, pareto.sumLog_eval (lt_aff (a := a) hc hgt), pareto.fsum_mean (ne_nil hn a c), mp.log_pos (mul_pos hc hs),
      meanLog_aff hn hc hgt, hA2, fin_div _ hA.ne', pure_eq_ok]

/-- C78: `pareto.mle` with shape and location fixed: the scale follows. -/
theorem pareto_mle_units_shape_loc (hn : xs ≠ []) (a : ℝ) (hc : 0 < c) {b loc : ℝ} (hb : 0 < b) (hx : ∀ x ∈ xs, loc < x) : ∃ scale : ℝ,
    pareto.mle findroot findroot2 (xs.map fin) (.fixed (fin b)) (.fixed (fin loc)) .none = .ok (fin b, fin loc, fin scale) ∧
    pareto.mle findroot findroot2 (rescale a c xs) (.fixed (fin b)) (.fixed (fin (a + c * loc))) .none =
      .ok (fin b, fin (a + c * loc), fin (c * scale)) := by
  obtain ⟨m, hm, hm', em, em2⟩ := min_aff hn a hc
  refine ⟨m - loc, ?_, ?_⟩
  · simp only [pareto.mle, one_def, pareto.validate_ok hb one_pos, bounds_weak fun x h => (hx x h).le, ok_bind, em, fin_sub, pure_eq_ok]
  · simp only [rescale, pareto.mle, one_def, pareto.validate_ok hb one_pos, bounds_weak fun x h => (lt_aff (a := a) hc hx x h).le, ok_bind, em2,
      fin_sub, pure_eq_ok]
    congr 4; ring

/-- C78: `pareto.mle` with shape and scale fixed: the location follows. -/
theorem pareto_mle_units_shape_scale (hn : xs ≠ []) (a : ℝ) (hc : 0 < c) {b s : ℝ} (hb : 0 < b) (hs : 0 < s) : ∃ loc : ℝ,
    pareto.mle findroot findroot2 (xs.map fin) (.fixed (fin b)) .none (.fixed (fin s)) = .ok (fin b, fin loc, fin s) ∧
    pareto.mle findroot findroot2 (rescale a c xs) (.fixed (fin b)) .none (.fixed (fin (c * s))) =
      .ok (fin b, fin (a + c * loc), fin (c * s)) := by
  obtain ⟨m, hm, hm', em, em2⟩ := min_aff hn a hc
  refine ⟨m - s, ?_, ?_⟩
  · simp only [pareto.mle, zero_def, pareto.validate_ok hb hs, ok_bind, em, fin_sub, pure_eq_ok]
  · simp only [rescale, pareto.mle, zero_def, pareto.validate_ok hb (mul_pos hc hs), ok_bind, em2, fin_sub, pure_eq_ok]
    congr 4; ring

theorem dat_aff (W : Option (List ℝ)) : stats.dat (xs.map fun x => 0 + c * x) W = (stats.dat xs W).map fun q => (0 + c * q.1, q.2) := by
  simp only [stats.dat, List.length_map, List.zip_map_left]
  rfl

theorem avg_aff (d : List (ℝ × ℝ)) (φ : ℝ → ℝ) : stats.avg (d.map fun q => (0 + c * q.1, q.2)) φ = stats.avg d fun t => φ (c * t) := by
  simp only [stats.avg, List.map_map, Function.comp_def, zero_add]

theorem avg_congr' {d : List (ℝ × ℝ)} {φ ψ : ℝ → ℝ} (h : ∀ q ∈ d, φ q.1 = ψ q.1) : stats.avg d φ = stats.avg d ψ := by
  simp only [stats.avg]
  rw [List.map_congr_left fun q hq => by rw [h q hq]]

theorem good_aff {W : Option (List ℝ)} (hW : GoodWeights xs W) : GoodWeights (xs.map fun x => 0 + c * x) W := by
  intro w h; simpa using hW w h

theorem pm_aff {W : Option (List ℝ)} (hn : xs ≠ []) (hx : ∀ x ∈ xs, 0 < x) (hW : GoodWeights xs W) (hc : 0 < c) (p : ℝ) :
    stats.pm (stats.dat (xs.map fun x => 0 + c * x) W) p = c * stats.pm (stats.dat xs W) p := by
  have G := stats.good_dat hn hW
  have P : stats.Pos (stats.dat xs W) := stats.pos_dat hx
  rw [dat_aff]
  unfold stats.pm
  split_ifs with hp
  · rw [avg_aff, avg_congr' (ψ := fun t => Real.log c + 1 * Real.log t) fun q hq => by
      rw [Real.log_mul hc.ne' (P q hq).ne', one_mul], stats.avg_add, stats.avg_const G, stats.avg_mul, one_mul, Real.exp_add, Real.exp_log hc]
  · rw [avg_aff, avg_congr' (ψ := fun t => c ^ p * t ^ p) fun q hq => Real.mul_rpow hc.le (P q hq).le, stats.avg_mul,
      Real.mul_rpow (by positivity) (stats.avg_pos G fun q hq => Real.rpow_pos_of_pos (P q hq) p).le, ← Real.rpow_mul hc.le,
      mul_one_div_cancel hp, Real.rpow_one]

/-- C78: `pmean` with any real power, with and without weights; `gmean` and `hmean` follow. -/
theorem pmean_homogeneous (p : ℝ) (W : Option (List ℝ)) :
    Homogeneous (fun x => stats.pmean x (fin p) (optNums W)) (fun xs => GoodWeights xs W) := by
  intro xs hn hx hW c hc
  refine ⟨_, stats.pmean_eval hn hx hW p, ?_⟩
  exact (stats.pmean_eval (ne_nil hn 0 c) (pos_aff hx hc) (good_aff hW) p).trans (by rw [pm_aff hn hx hW hc])

/-- C78: `gmean` -/
theorem gmean_homogeneous (W : Option (List ℝ)) :
    Homogeneous (fun x => stats.gmean x (optNums W)) (fun xs => GoodWeights xs W) := by
  intro xs hn hx hW c hc
  refine ⟨_, stats.gmean_eval hn hx hW, ?_⟩
  refine (stats.gmean_eval (ne_nil hn 0 c) (pos_aff hx hc) (good_aff hW)).trans ?_
  have := pm_aff hn hx hW hc 0
  simp only [stats.pm, if_true] at this
  rw [this]

/-- C78: `hmean` -/
theorem hmean_homogeneous (W : Option (List ℝ)) :
    Homogeneous (fun x => stats.hmean x (optNums W)) (fun xs => GoodWeights xs W) := by
  intro xs hn hx hW c hc
  refine ⟨_, stats.hmean_eval hn hx hW, ?_⟩
  refine (stats.hmean_eval (ne_nil hn 0 c) (pos_aff hx hc) (good_aff hW)).trans ?_
  rw [dat_aff, avg_aff, avg_congr' (ψ := fun t => (1 / c) * (1 / t)) fun q _ => by rw [one_div_mul_one_div], stats.avg_mul]
  congr 2; field_simp

/-- C78: `lehmer_mean`, also for the power 1/2, where the code returns the geometric mean -/
theorem lehmer_mean_homogeneous (p : ℝ) (W : Option (List ℝ)) :
    Homogeneous (fun x => stats.lehmerMean x (fin p) (optNums W)) (fun xs => GoodWeights xs W) := by
  intro xs hn hx hW c hc
  rcases eq_or_ne p (1 / 2) with rfl | hp
  · have ev : ∀ ys : List ℝ, (∀ y ∈ ys, 0 < y) → stats.lehmerMean (ys.map fin) (fin (1 / 2)) (optNums W) = stats.gmean (ys.map fin) (optNums W) := by
      intro ys hy
      have h1 : ¬ ∃ t ∈ ys.map fin, t ≤ fin 0 := by
        rintro ⟨_, h, h'⟩
        obtain ⟨y, h2, rfl⟩ := List.mem_map.1 h
        rw [fin_le] at h'
        exact (hy y h2).not_ge h'
      simp only [stats.lehmerMean, h1, if_false, zero_def, fin_eq, if_true, one_div, inv_eq_zero, OfNat.ofNat_ne_zero]
    obtain ⟨m, h1, h2⟩ := gmean_homogeneous W xs hn hx hW c hc
    exact ⟨m, (ev xs hx).trans h1, (ev _ (pos_aff hx hc)).trans h2⟩
  have G := stats.good_dat hn hW
  have P : stats.Pos (stats.dat xs W) := stats.pos_dat hx
  refine ⟨_, stats.lehmer_eval hn hx hW hp, ?_⟩
  refine (stats.lehmer_eval (ne_nil hn 0 c) (pos_aff hx hc) (good_aff hW) hp).trans ?_
  have h : ∀ r : ℝ, stats.avg (stats.dat (xs.map fun x => 0 + c * x) W) (fun t => t ^ r) = c ^ r * stats.avg (stats.dat xs W) fun t => t ^ r := by
    intro r
    rw [dat_aff, avg_aff, avg_congr' (ψ := fun t => c ^ r * t ^ r) fun q hq => Real.mul_rpow hc.le (P q hq).le, stats.avg_mul]
  have h0 : c ^ (p - 1) ≠ 0 := (Real.rpow_pos_of_pos hc _).ne'
  rw [h, h, mul_div_mul_comm, ← Real.rpow_sub hc, sub_sub_cancel, Real.rpow_one]

/-! The Weibull fits -/

section weibull
open weibull_common

variable {ys : List ℝ}

theorem A_aff (hy : ∀ y ∈ ys, 0 < y) (hc : 0 < c) (k : ℝ) : A (ys.map fun y => 0 + c * y) k = c ^ k * A ys k := by
  rw [A, A, ← sampleMean_mul, List.map_map]
  exact sampleMean_congr fun y h => by simp only [Function.comp, zero_add]; exact Real.mul_rpow hc.le (hy y h).le

theorem D_aff (hy : ∀ y ∈ ys, 0 < y) (hc : 0 < c) (k : ℝ) :
    D (ys.map fun y => 0 + c * y) k = c ^ k * (Real.log c * A ys k + D ys k) := by
  rw [D, A, D, ← sampleMean_mul, ← sampleMean_add, ← sampleMean_mul, List.map_map]
  exact sampleMean_congr fun y h => by
    simp only [Function.comp, zero_add]; rw [Real.mul_rpow hc.le (hy y h).le, Real.log_mul hc.ne' (hy y h).ne']; ring

theorem meanlog_aff0 (hn : ys ≠ []) (hy : ∀ y ∈ ys, 0 < y) (hc : 0 < c) :
    sampleMean ((ys.map fun y => 0 + c * y).map Real.log) = Real.log c + sampleMean (ys.map Real.log) := by
  have hl : ys.map Real.log ≠ [] := by simpa using hn
  rw [log_aff hy hc, sampleMean_aff hl, one_mul]

theorem eqn1_zero (hn : ys ≠ []) (h0 : ∀ y ∈ ys, 0 < y) : mleKEqn1 (fin 0) (ys.map fin) = .error .zeroDivision := by
  have h1 : (ys.map fin).mapM mp.log = .ok ((ys.map Real.log).map fin) := mapM_logpdf fun x hx => mp.log_pos (h0 x hx)
  have h2 : (ys.map fin).mapM (fun y => mp.power y (fin 0)) = .ok ((ys.map fun y => y ^ (0:ℝ)).map fin) :=
    mapM_logpdf fun x hx => mp.power_pos (h0 x hx) 0
  have hl := (length_pos hn).ne'
  have hA := (A_pos hn h0 0).ne'
  have h3 : (((ys.map fun y => y ^ (0:ℝ)).map fin).zip ((ys.map Real.log).map fin)).map (fun p => p.1 * p.2) =
      (ys.map fun y => y ^ (0:ℝ) * Real.log y).map fin := by
    rw [List.map_map, List.map_map, List.zip_map', List.map_map, List.map_map]; rfl
  have h4 : (ys.map fun y => y ^ (0:ℝ)).sum ≠ 0 := by rw [sum_eq_mean hn]; exact mul_ne_zero hl hA
  simp only [mleKEqn1, h1, h2, ok_bind, h3, mp.fsum_fin, fin_div _ h4, len_fin, fin_div _ hl, one_def, fin_div_zero]
  rfl

/-- The equation for the shape does not depend on the unit. -/
theorem eqn1_aff (hn : ys ≠ []) (hy : ∀ y ∈ ys, 0 < y) (hc : 0 < c) (k : ℝ) :
    mleKEqn1 (fin k) ((ys.map fun y => 0 + c * y).map fin) = mleKEqn1 (fin k) (ys.map fin) := by
  rcases eq_or_ne k 0 with rfl | hk
  · rw [eqn1_zero hn hy, eqn1_zero (ne_nil hn 0 c) (pos_aff hy hc)]
  · rw [eqn1_eval hn hy hk, eqn1_eval (ne_nil hn 0 c) (pos_aff hy hc) hk, A_aff hy hc, D_aff hy hc, meanlog_aff0 hn hy hc]
    have hA := (A_pos hn hy k).ne'
    have h0 : c ^ k ≠ 0 := (Real.rpow_pos_of_pos hc k).ne'
    congr 2; field_simp; ring

theorem pmean_aff (hn : ys ≠ []) (hy : ∀ y ∈ ys, 0 < y) (hc : 0 < c) (k : ℝ) : ∃ s : ℝ,
    stats.pmean (ys.map fin) (fin k) = .ok (fin s) ∧ stats.pmean ((ys.map fun y => 0 + c * y).map fin) (fin k) = .ok (fin (c * s)) :=
  pmean_homogeneous k none ys hn hy (stats.goodWeights_none ys) c hc

theorem shifted_free {loc loc' : Num} (hf : SeesReals findroot) (hn : ys ≠ []) (hy : ∀ y ∈ ys, 0 < y) (hc : 0 < c) {k : ℝ} {l s : Num}
    (h : mleShifted findroot (ys.map fin) none loc none = .ok (fin k, l, s)) : l = loc ∧ ∃ s' : ℝ, s = fin s' ∧
    mleShifted findroot ((ys.map fun y => 0 + c * y).map fin) none loc' none = .ok (fin k, loc', fin (c * s')) := by
  have e := hf (fun k => mleKEqn1 k ((ys.map fun y => 0 + c * y).map fin)) (fun k => mleKEqn1 k (ys.map fin)) (eqn1_aff hn hy hc) 1
  simp only [mleShifted, Option.not_mem_none, false_and, exists_false, if_false, one_def] at h ⊢
  obtain ⟨v, h1, h2⟩ := ok_of_bind h
  obtain ⟨w, h3, h4⟩ := ok_of_bind h2
  obtain ⟨rfl, h5⟩ := Prod.mk.inj (Except.ok.inj h4)
  obtain ⟨rfl, rfl⟩ := Prod.mk.inj h5
  obtain ⟨s', h6, h7⟩ := pmean_aff hn hy hc k
  rw [h6] at h3
  refine ⟨rfl, s', (Except.ok.inj h3).symm, ?_⟩
  rw [e, h1]
  simp only [ok_bind, h7, pure_eq_ok]

theorem shifted_shape {loc : Num} (hn : ys ≠ []) (hy : ∀ y ∈ ys, 0 < y) (hc : 0 < c) {k : ℝ} (hk : 0 < k) : ∃ s' : ℝ,
    mleShifted findroot (ys.map fin) (some (fin k)) loc none = .ok (fin k, loc, fin s') ∧ ∀ loc',
    mleShifted findroot ((ys.map fun y => 0 + c * y).map fin) (some (fin k)) loc' none = .ok (fin k, loc', fin (c * s')) := by
  obtain ⟨s', h6, h7⟩ := pmean_aff hn hy hc k
  refine ⟨s', ?_, fun _ => ?_⟩
  · simp [mleShifted, hk.not_ge, h6]
  · simp only [mleShifted, h7]; simp [hk.not_ge]

theorem eqn2_zero (hn : ys ≠ []) (h0 : ∀ y ∈ ys, 0 < y) {s : ℝ} (hs : 0 < s) : mleKEqn2 (fin 0) (ys.map fin) (fin s) = .error .zeroDivision := by
  have h1 : (ys.map fin).mapM mp.log = .ok ((ys.map Real.log).map fin) := mapM_logpdf fun x hx => mp.log_pos (h0 x hx)
  have h2 : (ys.map fin).mapM (fun y => mp.power y (fin 0)) = .ok ((ys.map fun y => y ^ (0:ℝ)).map fin) :=
    mapM_logpdf fun x hx => mp.power_pos (h0 x hx) 0
  have h3 : (ys.map fin).mapM (fun y => do return (← mp.power y (fin 0)) * (← mp.log y)) =
      .ok ((ys.map fun y => y ^ (0:ℝ) * Real.log y).map fin) := mapM_logpdf fun x hx => by
    simp only [mp.power_pos (h0 x hx), mp.log_pos (h0 x hx), ok_bind, fin_mul, pure_eq_ok]
  have hl := (length_pos hn).ne'
  simp only [mleKEqn2, h1, h2, ok_bind, h3, mp.fsum_fin, len_fin, fin_div _ hl, one_def, mp.log_pos hs, fin_div_zero]
  rfl

theorem eqn2_aff (hn : ys ≠ []) (hy : ∀ y ∈ ys, 0 < y) (hc : 0 < c) {s : ℝ} (hs : 0 < s) (k : ℝ) :
    mleKEqn2 (fin k) ((ys.map fun y => 0 + c * y).map fin) (fin (c * s)) = mleKEqn2 (fin k) (ys.map fin) (fin s) := by
  rcases eq_or_ne k 0 with rfl | hk
  · rw [eqn2_zero hn hy hs, eqn2_zero (ne_nil hn 0 c) (pos_aff hy hc) (mul_pos hc hs)]
  · rw [eqn2_eval hn hy hk hs, eqn2_eval (ne_nil hn 0 c) (pos_aff hy hc) hk (mul_pos hc hs), A_aff hy hc, D_aff hy hc, meanlog_aff0 hn hy hc,
      Real.log_mul hc.ne' hs.ne', Real.mul_rpow hc.le hs.le]
    have h0 : c ^ k ≠ 0 := (Real.rpow_pos_of_pos hc k).ne'
    have h1 : s ^ k ≠ 0 := (Real.rpow_pos_of_pos hs k).ne'
    congr 2; field_simp; ring

/-- The median follows. -/
theorem median_aff (hn : ys ≠ []) (hy : ∀ y ∈ ys, 0 < y) (hc : 0 < c) : ∃ m : ℝ, 0 < m ∧ median (ys.map fin) = .ok (fin m) ∧
    median ((ys.map fun y => 0 + c * y).map fin) = .ok (fin (c * m)) := by
  have hl0 : 0 < ys.length := List.length_pos_iff.2 hn
  unfold median
  rw [py.sorted_fin, py.sorted_fin, sorted_aff ys 0 hc]
  set s := ys.insertionSort (fun a b => a ≤ b) with hs
  have hp : s.Perm ys := List.perm_insertionSort _ _
  have hl : s.length = ys.length := hp.length_eq
  have hpos : ∀ y ∈ s, 0 < y := fun y h => hy y (hp.mem_iff.1 h)
  rw [← hl] at hl0
  simp only [List.length_map]
  rcases Nat.even_or_odd' s.length with ⟨k, hk | hk⟩
  · have h1 : ¬ ((s.length : ℤ) % 2 = 1) := by omega
    have h2 : ((s.length : ℤ) / 2 - 1).toNat = k - 1 := by omega
    refine ⟨((s.drop (k - 1)).take 2).sum / 2, ?_, ?_, ?_⟩
    · refine half_pos (List.sum_pos _ (fun y h => hpos y (List.mem_of_mem_drop (List.mem_of_mem_take h))) ?_)
      intro h
      have := congrArg List.length h
      simp at this; omega
    · simp only [h1, if_false, h2, ← List.map_drop, ← List.map_take, mp.fsum_fin, ofNat_def, fin_div _ (two_ne_zero (α := ℝ))]
    · simp only [h1, if_false, h2, ← List.map_drop, ← List.map_take, mp.fsum_fin, ofNat_def, fin_div _ (two_ne_zero (α := ℝ)),
        zero_add]
      have e : (((s.drop (k - 1)).take 2).map fun y => c * y).sum = c * (((s.drop (k - 1)).take 2).map fun y => y).sum :=
        List.sum_map_mul_left ..
      rw [e, List.map_id', mul_div_assoc]
  · have h1 : ((s.length : ℤ) % 2 = 1) := by omega
    have h2 : (s.length : ℤ) / 2 = (k : ℤ) := by omega
    have hk2 : k < s.length := by omega
    refine ⟨s[k], hpos _ (List.getElem_mem hk2), ?_, ?_⟩
    · simp only [h1, if_true, h2]
      rw [py.item_nat (by simpa using hk2)]; simp
    · simp only [h1, if_true, h2]
      rw [py.item_nat (by simpa using hk2)]; simp

theorem shifted_scale {loc loc' : Num} (hf : SeesReals findroot) (hn : ys ≠ []) (hy : ∀ y ∈ ys, 0 < y) (hc : 0 < c) {s : ℝ} (hs : 0 < s)
    {k l v : Num} (h : mleShifted findroot (ys.map fin) none loc (some (fin s)) = .ok (k, l, v)) : l = loc ∧ v = fin s ∧
    mleShifted findroot ((ys.map fun y => 0 + c * y).map fin) none loc' (some (fin (c * s))) = .ok (k, loc', fin (c * s)) := by
  obtain ⟨m, hm, m1, m2⟩ := median_aff hn hy hc
  have e1 : c * m / (c * s) = m / s := by field_simp
  have e := hf (fun k => mleKEqn2 k ((ys.map fun y => 0 + c * y).map fin) (fin (c * s))) (fun k => mleKEqn2 k (ys.map fin) (fin s)) (eqn2_aff hn hy hc hs)
  have h3 : ¬ (fin s : Num) ≤ 0 := by rw [zero_def, fin_le]; exact not_le.2 hs
  have h4 : ¬ (fin (c * s) : Num) ≤ 0 := by rw [zero_def, fin_le]; exact not_le.2 (mul_pos hc hs)
  have h5 : mp.log (2 : Num) = .ok (fin (Real.log 2)) := mp.log_pos two_pos
  simp only [mleShifted, Option.not_mem_none, false_and, exists_false, if_false, Option.mem_some_iff, exists_eq_left', h3, h4, m1, m2, ok_bind,
    fin_div _ hs.ne', fin_div _ (mul_pos hc hs).ne', e1, mp.log_pos (div_pos hm hs), h5, mp.log_pos (Real.log_pos one_lt_two)] at h ⊢
  split_ifs at h ⊢ with h10
  · simp only [pure_eq_ok, ok_bind, one_def] at h ⊢
    obtain ⟨k1, h8, h9⟩ := ok_of_bind h
    obtain ⟨rfl, h11⟩ := Prod.mk.inj (Except.ok.inj h9)
    obtain ⟨rfl, rfl⟩ := Prod.mk.inj h11
    rw [e 1, h8]
    exact ⟨rfl, rfl, rfl⟩
  · have h0 : Real.log (m / s) ≠ 0 := fun h => h10 (by rw [h]; exact (fin_le 0 0).2 le_rfl)
    simp only [fin_div _ h0, ok_bind] at h ⊢
    obtain ⟨k1, h8, h9⟩ := ok_of_bind h
    obtain ⟨rfl, h11⟩ := Prod.mk.inj (Except.ok.inj h9)
    obtain ⟨rfl, rfl⟩ := Prod.mk.inj h11
    rw [e, h8]
    exact ⟨rfl, rfl, rfl⟩

theorem shift_min (xs : List ℝ) (a c loc : ℝ) : ((xs.map fun x => a + c * x).map fun y => y - (a + c * loc)) =
    (xs.map fun x => x - loc).map fun y => 0 + c * y := by
  rw [List.map_map, List.map_map]
  exact List.map_congr_left fun x _ => by simp only [Function.comp]; ring

theorem shift_max (xs : List ℝ) (a c loc : ℝ) : ((xs.map fun x => a + c * x).map fun y => -y + (a + c * loc)) =
    (xs.map fun x => -x + loc).map fun y => 0 + c * y := by
  rw [List.map_map, List.map_map]
  exact List.map_congr_left fun x _ => by simp only [Function.comp]; ring

theorem gt_aff (hc : 0 < c) {loc : ℝ} (hx : ∀ x ∈ xs, x < loc) : ∀ y ∈ xs.map (fun x => a + c * x), y < a + c * loc := by
  intro y hy
  obtain ⟨x, h, rfl⟩ := List.mem_map.1 hy
  have := mul_lt_mul_of_pos_left (hx x h) hc
  linarith

/-- C78: `weibull_min.mle` with `loc` given, which follows: the shape stays, the scale follows. -/
theorem weibull_min_mle_units (hf : SeesReals findroot) (hn : xs ≠ []) (a : ℝ) (hc : 0 < c) {loc : ℝ} (hx : ∀ x ∈ xs, loc < x) {k : ℝ}
    {l s : Num} (h : weibull_min.mle findroot (xs.map fin) none (some (fin loc)) none = .ok (fin k, l, s)) : l = fin loc ∧
    ∃ s' : ℝ, s = fin s' ∧ weibull_min.mle findroot (rescale a c xs) none (some (fin (a + c * loc))) none =
      .ok (fin k, fin (a + c * loc), fin (c * s')) := by
  obtain ⟨hn', h0⟩ := weibull_min.shifted_pos hn hx
  rw [weibull_min.mle_shift hx] at h
  rw [rescale, weibull_min.mle_shift (lt_aff hc hx), shift_min]
  exact shifted_free hf hn' h0 hc h

/-- C78: `weibull_min.mle` with the shape given too -/
theorem weibull_min_mle_units_shape (hn : xs ≠ []) (a : ℝ) (hc : 0 < c) {loc : ℝ} (hx : ∀ x ∈ xs, loc < x) {k : ℝ} (hk : 0 < k) : ∃ s : ℝ,
    weibull_min.mle findroot (xs.map fin) (some (fin k)) (some (fin loc)) none = .ok (fin k, fin loc, fin s) ∧
    weibull_min.mle findroot (rescale a c xs) (some (fin k)) (some (fin (a + c * loc))) none =
      .ok (fin k, fin (a + c * loc), fin (c * s)) := by
  obtain ⟨hn', h0⟩ := weibull_min.shifted_pos hn hx
  rw [weibull_min.mle_shift hx, rescale, weibull_min.mle_shift (lt_aff hc hx), shift_min]
  obtain ⟨s, h1, h2⟩ := shifted_shape (findroot := findroot) (loc := fin loc) hn' h0 hc hk
  exact ⟨s, h1, h2 _⟩

/-- C78: `weibull_max.mle` with `loc` given, which follows: the shape stays, the scale follows. -/
theorem weibull_max_mle_units (hf : SeesReals findroot) (hn : xs ≠ []) (a : ℝ) (hc : 0 < c) {loc : ℝ} (hx : ∀ x ∈ xs, x < loc) {k : ℝ}
    {l s : Num} (h : weibull_max.mle findroot (xs.map fin) none (some (fin loc)) none = .ok (fin k, l, s)) : l = fin loc ∧
    ∃ s' : ℝ, s = fin s' ∧ weibull_max.mle findroot (rescale a c xs) none (some (fin (a + c * loc))) none =
      .ok (fin k, fin (a + c * loc), fin (c * s')) := by
  obtain ⟨hn', h0⟩ := weibull_max.shifted_pos hn hx
  rw [weibull_max.mle_shift hx] at h
  rw [rescale, weibull_max.mle_shift (gt_aff hc hx), shift_max]
  exact shifted_free hf hn' h0 hc h

/-- C78: `weibull_max.mle` with the shape given too -/
theorem weibull_max_mle_units_shape (hn : xs ≠ []) (a : ℝ) (hc : 0 < c) {loc : ℝ} (hx : ∀ x ∈ xs, x < loc) {k : ℝ} (hk : 0 < k) : ∃ s : ℝ,
    weibull_max.mle findroot (xs.map fin) (some (fin k)) (some (fin loc)) none = .ok (fin k, fin loc, fin s) ∧
    weibull_max.mle findroot (rescale a c xs) (some (fin k)) (some (fin (a + c * loc))) none =
      .ok (fin k, fin (a + c * loc), fin (c * s)) := by
  obtain ⟨hn', h0⟩ := weibull_max.shifted_pos hn hx
  rw [weibull_max.mle_shift hx, rescale, weibull_max.mle_shift (gt_aff hc hx), shift_max]
  obtain ⟨s, h1, h2⟩ := shifted_shape (findroot := findroot) (loc := fin loc) hn' h0 hc hk
  exact ⟨s, h1, h2 _⟩

/-- C78: `weibull_min.mle` with the scale given too, which follows: the shape stays. -/
theorem weibull_min_mle_units_scale (hf : SeesReals findroot) (hn : xs ≠ []) (a : ℝ) (hc : 0 < c) {loc : ℝ} (hx : ∀ x ∈ xs, loc < x) {s : ℝ}
    (hs : 0 < s) {k l v : Num} (h : weibull_min.mle findroot (xs.map fin) none (some (fin loc)) (some (fin s)) = .ok (k, l, v)) :
    l = fin loc ∧ v = fin s ∧ weibull_min.mle findroot (rescale a c xs) none (some (fin (a + c * loc))) (some (fin (c * s))) =
      .ok (k, fin (a + c * loc), fin (c * s)) := by
  obtain ⟨hn', h0⟩ := weibull_min.shifted_pos hn hx
  rw [weibull_min.mle_shift hx] at h
  rw [rescale, weibull_min.mle_shift (lt_aff hc hx), shift_min]
  exact shifted_scale hf hn' h0 hc hs h

/-- C78: `weibull_max.mle` with the scale given too, which follows: the shape stays. -/
theorem weibull_max_mle_units_scale (hf : SeesReals findroot) (hn : xs ≠ []) (a : ℝ) (hc : 0 < c) {loc : ℝ} (hx : ∀ x ∈ xs, x < loc) {s : ℝ}
    (hs : 0 < s) {k l v : Num} (h : weibull_max.mle findroot (xs.map fin) none (some (fin loc)) (some (fin s)) = .ok (k, l, v)) :
    l = fin loc ∧ v = fin s ∧ weibull_max.mle findroot (rescale a c xs) none (some (fin (a + c * loc))) (some (fin (c * s))) =
      .ok (k, fin (a + c * loc), fin (c * s)) := by
  obtain ⟨hn', h0⟩ := weibull_max.shifted_pos hn hx
  rw [weibull_max.mle_shift hx] at h
  rw [rescale, weibull_max.mle_shift (gt_aff hc hx), shift_max]
  exact shifted_scale hf hn' h0 hc hs h

end weibull

/-- Non-vacuity: the finder that returns its starting value evaluates nothing; with it the fit of `weibull_min` succeeds. -/
example : SeesReals (fun _ s => .ok s) ∧ (∀ x ∈ [(1:ℝ), 3], 0 < x) ∧ ¬ ∃ k : ℝ, ∀ x ∈ [(1:ℝ), 3], x = k := by
  refine ⟨fun _ _ _ _ => rfl, by simp, ?_⟩
  rintro ⟨c, hc⟩
  have h1 := hc 1 (by simp)
  have h2 := hc 3 (by simp)
  linarith

/-- Non-vacuity: for the data 1, 3 in a unit twice as small and with another origin, 7 + 2 x, the normal fit
goes from (2, 1) to (11, 2). -/
example : normal.mle (rescale 7 2 [1, 3]) = .ok (fin 11, fin 2) := by
  rw [rescale, normal.mle_eq (by simp)]
  simp only [List.map, sampleMean, sampleVar, List.sum_cons, List.sum_nil, List.length]
  norm_num
  rw [show (4:ℝ) = 2 ^ 2 by norm_num, Real.sqrt_sq two_pos.le]

end Mpsci.affine
