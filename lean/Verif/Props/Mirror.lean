import Verif.Spec.Mirror
import Verif.Props.Affine
import Verif.Props.AffineNll
import Verif.Props.Fit.Beta
import Verif.Props.Stats.Pearsonr
import Verif.Lemmas.Stats.BoxcoxMle

/-! C80: the fits, likelihoods and correlations of mirrored data. -/

namespace Mpsci.mirror

open Classical Num Spec common

variable {xs : List ℝ} {loc s k : ℝ}

theorem neg_eq (xs : List ℝ) : (xs.map fun x => -x) = xs.map fun x => 0 + -1 * x := List.map_congr_left fun x _ => by ring

theorem ne_nil (hn : xs ≠ []) : (xs.map fun x => -x) ≠ [] := by simpa using hn

theorem sampleMean_neg (hn : xs ≠ []) : sampleMean (xs.map fun x => -x) = -sampleMean xs := by
  rw [neg_eq, affine.sampleMean_aff hn]; ring

theorem sampleVar_neg (hn : xs ≠ []) : sampleVar (xs.map fun x => -x) = sampleVar xs := by
  rw [neg_eq, affine.sampleVar_aff hn]; ring

theorem mirrors {f g : List Num → M (Num × Num)} {L L' S S' : List ℝ → ℝ}
    (hf : ∀ xs : List ℝ, xs ≠ [] → f (xs.map fin) = .ok (fin (L xs), fin (S xs)))
    (hg : ∀ xs : List ℝ, xs ≠ [] → g (xs.map fin) = .ok (fin (L' xs), fin (S' xs)))
    (hL : ∀ xs : List ℝ, xs ≠ [] → L' (xs.map fun x => -x) = -L xs)
    (hS : ∀ xs : List ℝ, xs ≠ [] → S' (xs.map fun x => -x) = S xs) : MirrorFits f g := by
  intro xs hn
  refine ⟨L xs, S xs, hf xs hn, ?_⟩
  rw [mirrored, hg _ (ne_nil hn), hL xs hn, hS xs hn]

/-- C80: `normal.mle` -/
theorem normal_mle : MirrorFits normal.mle normal.mle :=
  mirrors (fun _ hn => normal.mle_eq hn) (fun _ hn => normal.mle_eq hn) (fun _ hn => sampleMean_neg hn)
    fun _ hn => by rw [sampleVar_neg hn]

theorem laplace_eval (hn : xs ≠ []) : laplace.mom (xs.map fin) = .ok (fin (sampleMean xs), fin (Real.sqrt (sampleVar xs / 2))) := by
  have h := sampleVar_nonneg xs
  simp only [laplace.mom, mean_fin hn, mean_sq_fin hn, ok_bind, mp.ipow_fin, fin_sub, ofNat_def, fin_div _ (two_ne_zero (α := ℝ)),
      sampleVar_eq hn, mp.sqrt_nonneg (show 0 ≤ sampleVar xs / 2 by positivity), pure_eq_ok]

/-- C80: `laplace.mom` -/
theorem laplace_mom : MirrorFits laplace.mom laplace.mom :=
  mirrors (fun _ hn => laplace_eval hn) (fun _ hn => laplace_eval hn) (fun _ hn => sampleMean_neg hn)
    fun _ hn => by rw [sampleVar_neg hn]

theorem logistic_eval (hn : xs ≠ []) : logistic.mom (xs.map fin) =
    .ok (fin (sampleMean xs), fin (Real.sqrt (3 * sampleVar xs) / Real.pi)) := by
  have h := sampleVar_nonneg xs
  simp only [logistic.mom, mean_fin hn, mean_sq_fin hn, ok_bind, mp.ipow_fin, fin_sub, ofNat_def, fin_mul,
      sampleVar_eq hn, mp.sqrt_nonneg (show 0 ≤ 3 * sampleVar xs by positivity), mp.pi_def, fin_div _ Real.pi_ne_zero, pure_eq_ok]

/-- C80: `logistic.mom` -/
theorem logistic_mom : MirrorFits logistic.mom logistic.mom :=
  mirrors (fun _ hn => logistic_eval hn) (fun _ hn => logistic_eval hn) (fun _ hn => sampleMean_neg hn)
    fun _ hn => by rw [sampleVar_neg hn]

/-- C80: `gumbel_max.mom` and `gumbel_min.mom` -/
theorem gumbel_mom : MirrorFits gumbel_max.mom gumbel_min.mom := by
  refine mirrors (L := fun xs => sampleMean xs - Real.sqrt (6 * sampleVar xs) / Real.pi * Real.eulerMascheroniConstant)
    (S := fun xs => Real.sqrt (6 * sampleVar xs) / Real.pi)
    (L' := fun xs => sampleMean xs + Real.sqrt (6 * sampleVar xs) / Real.pi * Real.eulerMascheroniConstant)
    (S' := fun xs => Real.sqrt (6 * sampleVar xs) / Real.pi) (fun xs hn => ?_) (fun xs hn => ?_)
    (fun xs hn => by simp only [sampleMean_neg hn, sampleVar_neg hn]; ring) fun xs hn => by simp only [sampleVar_neg hn]
  · have h := sampleVar_nonneg xs
    simp only [gumbel_max.mom, mean_fin hn, mean_sq_fin hn, ok_bind, mp.ipow_fin, fin_sub, ofNat_def, fin_mul,
      sampleVar_eq hn, mp.sqrt_nonneg (show 0 ≤ 6 * sampleVar xs by positivity), mp.pi_def, fin_div _ Real.pi_ne_zero, mp.euler, pure_eq_ok]
  · have h := sampleVar_nonneg xs
    simp only [gumbel_min.mom, mean_fin hn, mean_sq_fin hn, ok_bind, mp.ipow_fin, fin_sub, ofNat_def, fin_mul, fin_add,
      sampleVar_eq hn, mp.sqrt_nonneg (show 0 ≤ 6 * sampleVar xs by positivity), mp.pi_def, fin_div _ Real.pi_ne_zero, mp.euler, pure_eq_ok]

/-- C80: `uniform.mom` -/
theorem uniform_mom : MirrorEnds uniform.mom := by
  have ev : ∀ xs : List ℝ, xs ≠ [] → uniform.mom (xs.map fin) =
      .ok (fin (sampleMean xs - Real.sqrt (3 * sampleVar xs)), fin (sampleMean xs + Real.sqrt (3 * sampleVar xs))) := fun xs hn => by
    have h := sampleVar_nonneg xs
    simp only [uniform.mom, mean_fin hn, mean_sq_fin hn, ok_bind, mp.ipow_fin, fin_sub, ofNat_def, fin_mul, fin_add,
      sampleVar_eq hn, mp.sqrt_nonneg (show 0 ≤ 3 * sampleVar xs by positivity), pure_eq_ok]
  intro xs hn
  refine ⟨_, _, ev xs hn, ?_⟩
  rw [mirrored, ev _ (ne_nil hn), sampleMean_neg hn, sampleVar_neg hn]
  congr 3 <;> ring

/-- C80: `uniform.mle` -/
theorem uniform_mle : MirrorEnds uniform.mle := by
  intro xs hn
  obtain ⟨l, a1, a2, a3⟩ := py.min_fin hn
  obtain ⟨r, b1, b2, b3⟩ := py.max_fin hn
  obtain ⟨l', c1, c2, c3⟩ := py.min_fin (ne_nil hn)
  obtain ⟨r', d1, d2, d3⟩ := py.max_fin (ne_nil hn)
  have e1 : l' = -r := le_antisymm (c2 _ (List.mem_map_of_mem b1)) (by
    obtain ⟨y, hy, rfl⟩ := List.mem_map.1 c1; exact neg_le_neg (b2 y hy))
  have e2 : r' = -l := le_antisymm (by
    obtain ⟨y, hy, rfl⟩ := List.mem_map.1 d1; exact neg_le_neg (a2 y hy)) (d2 _ (List.mem_map_of_mem a1))
  subst e1 e2
  refine ⟨l, r, ?_, ?_⟩
  · simp only [uniform.mle, a3, b3, ok_bind, pure_eq_ok]
  · simp only [uniform.mle, mirrored, c3, d3, ok_bind, pure_eq_ok]

/-- The order of the mirrored data is reversed. -/
theorem sorted_neg (xs : List ℝ) : (xs.map fun x => -x).insertionSort (fun s t => s ≤ t) =
    ((xs.insertionSort fun s t => s ≤ t).map fun x => -x).reverse := by
  refine List.Perm.eq_of_pairwise (le := fun s t : ℝ => s ≤ t) (fun a b _ _ h h' => le_antisymm h h') (List.pairwise_insertionSort _ _) ?_ ?_
  · rw [List.pairwise_reverse, List.pairwise_map]
    exact (List.pairwise_insertionSort (fun s t : ℝ => s ≤ t) xs).imp fun h => neg_le_neg h
  · exact (List.perm_insertionSort _ _).trans (((List.perm_insertionSort _ xs).symm.map _).trans (List.reverse_perm _).symm)

/-- The median is mirrored. -/
theorem mleLoc_neg (hn : xs ≠ []) : ∃ m : ℝ, laplace.mleLoc (xs.map fin) = .ok (fin m) ∧
    laplace.mleLoc (mirrored xs) = .ok (fin (-m)) := by
  have hl0 : 0 < xs.length := List.length_pos_iff.2 hn
  unfold laplace.mleLoc mirrored
  rw [py.sorted_fin, py.sorted_fin, sorted_neg xs]
  set s := xs.insertionSort (fun a b => a ≤ b) with hs
  have hp : s.Perm xs := List.perm_insertionSort _ _
  have hl : s.length = xs.length := hp.length_eq
  rw [← hl] at hl0
  simp only [List.length_map, List.length_reverse]
  have item : ∀ i : ℕ, (h : i < s.length) → py.item (s.map fin) (i : ℤ) = .ok (fin s[i]) := fun i h => by
    rw [py.item_nat (by simpa using h)]; simp
  have item' : ∀ i j : ℕ, i + j + 1 = s.length → (h : j < s.length) →
      py.item ((s.map fun x => -x).reverse.map fin) (i : ℤ) = .ok (fin (-s[j])) := fun i j e h => by
    rw [py.item_nat (by simp; omega)]
    simp only [List.getElem_map, List.getElem_reverse, List.length_map]
    congr 3
    congr 1
    omega
  rcases Nat.even_or_odd' s.length with ⟨k, hk | hk⟩
  · have h1 : ¬ ((s.length : ℤ) % 2 = 1) := by omega
    have h2 : (s.length : ℤ) / 2 = (k : ℤ) := by omega
    have h3 : (k : ℤ) - 1 = ((k - 1 : ℕ) : ℤ) := by omega
    have hk1 : k - 1 < s.length := by omega
    have hk2 : k < s.length := by omega
    refine ⟨(s[k - 1] + s[k]) / 2, ?_, ?_⟩
    · simp only [h1, if_false, h2, h3, item _ hk1, item _ hk2, ok_bind, fin_add, ofNat_def,
        fin_div _ (two_ne_zero (α := ℝ))]
    · simp only [h1, if_false, h2, h3, item' (k - 1) k (by omega) hk2, item' k (k - 1) (by omega) hk1, ok_bind, fin_add, ofNat_def,
        fin_div _ (two_ne_zero (α := ℝ))]
      congr 2; ring
  · have h1 : ((s.length : ℤ) % 2 = 1) := by omega
    have h2 : (s.length : ℤ) / 2 = (k : ℤ) := by omega
    have hk2 : k < s.length := by omega
    refine ⟨s[k], ?_, ?_⟩
    · simp only [h1, if_true, h2, item _ hk2]
    · simp only [h1, if_true, h2, item' k k (by omega) hk2]

theorem meanAbs_neg (hn : xs ≠ []) (m : ℝ) : ∃ d : ℝ, stats.mean ((xs.map fin).map fun t => Num.abs (t - fin m)) = .ok (fin d) ∧
    stats.mean ((mirrored xs).map fun t => Num.abs (t - fin (-m))) = .ok (fin d) := by
  refine ⟨sampleMean (xs.map fun x => |x - m|), ?_, ?_⟩
  · simp only [List.map_map, Function.comp_def, fin_sub, Num.abs]
    exact mean_map hn fun x => |x - m|
  · simp only [mirrored, List.map_map, Function.comp_def, fin_sub, Num.abs]
    have e : ∀ x, |-x - -m| = |x - m| := fun x => by rw [← abs_neg]; congr 1; ring
    simp only [e]
    exact mean_map hn fun x => |x - m|

/-- C80: `laplace.mle` -/
theorem laplace_mle : MirrorFits (fun x => laplace.mle x none none) fun x => laplace.mle x none none := by
  intro xs hn
  obtain ⟨m, h1, h2⟩ := mleLoc_neg hn
  obtain ⟨d, h3, h4⟩ := meanAbs_neg hn m
  refine ⟨m, d, ?_, ?_⟩
  · simp only [laplace.mle, h1, ok_bind, h3, pure_eq_ok]
  · simp only [laplace.mle, h2, ok_bind, h4, pure_eq_ok]

/-- C80: `laplace.mle` with a fixed location -/
theorem laplace_mle_loc (loc : ℝ) : MirrorFits (fun x => laplace.mle x (some (fin loc)) none) fun x => laplace.mle x (some (fin (-loc))) none := by
  intro xs hn
  obtain ⟨d, h3, h4⟩ := meanAbs_neg hn loc
  refine ⟨loc, d, ?_, ?_⟩
  · simp only [laplace.mle, ok_bind, h3, pure_eq_ok]
  · simp only [laplace.mle, ok_bind, h4, pure_eq_ok]

theorem shifted_map (findroot : (Num → M Num) → Num → M Num) (x : List Num) (k scale : Option Num) (l l' : Num) (f : Num → Num) (h : f l = l') :
    weibull_common.mleShifted findroot x k l' scale = (fun r => (r.1, f r.2.1, r.2.2)) <$> weibull_common.mleShifted findroot x k l scale := by
  subst h
  unfold weibull_common.mleShifted
  by_cases h1 : ∃ k' ∈ k, k' ≤ 0
  · simp only [h1, if_true]; rfl
  by_cases h2 : ∃ s ∈ scale, s ≤ 0
  · simp only [h1, h2, if_true, if_false]; rfl
  simp only [h1, h2, if_false]
  cases k <;> cases scale <;> simp only [map_bind, map_pure, apply_ite (fun r : M (Num × Num × Num) => (fun r => (r.1, f r.2.1, r.2.2)) <$> r)]

/-- C80: `weibull_max.mle` of the mirrored data is `weibull_min.mle` with the location mirrored, whatever is fixed and whatever the
root finder does, errors included. -/
theorem weibull_mle (findroot : (Num → M Num) → Num → M Num) (xs : List ℝ) (k scale : Option Num) (loc : Option ℝ) :
    weibull_max.mle findroot (mirrored xs) k (loc.map fun l => fin (-l)) scale =
      (fun r => (r.1, -r.2.1, r.2.2)) <$> weibull_min.mle findroot (xs.map fin) k (loc.map fin) scale := by
  cases loc with
  | none => rfl
  | some l =>
    have e : (mirrored xs).map (fun t => -t + fin (-l)) = (xs.map fin).map fun t => t - fin l := by
      simp only [mirrored, List.map_map, Function.comp_def, neg_fin, fin_add, fin_sub, neg_neg, sub_eq_add_neg]
    simp only [weibull_max.mle, weibull_min.mle, Option.map_some]
    by_cases hx : ∀ x ∈ xs, l < x
    · rw [validateXBounds_ok (lo := none) (by simp) (by
        rw [mirrored, badHigh_strict]; push Not
        intro t ht; obtain ⟨x, hm, rfl⟩ := List.mem_map.1 ht; exact neg_lt_neg (hx x hm)),
        validateXBounds_ok (hi := none) (by rw [badLow_strict]; push Not; exact hx) (by simp), ok_bind, ok_bind, e]
      exact shifted_map findroot _ k scale (fin l) (fin (-l)) (fun t => -t) (neg_fin l)
    · push Not at hx
      obtain ⟨x, hm, hx⟩ := hx
      rw [validateXBounds_low (badLow_strict.2 ⟨x, hm, hx⟩), mirrored,
        validateXBounds_high (badHigh_strict.2 ⟨-x, List.mem_map_of_mem hm, neg_le_neg hx⟩)]
      rfl

/-- C80: the p-values of `pearsonr`: mirroring one sample negates `r` and exchanges the two one-sided alternatives. -/
theorem pearsonr_alternatives {d : List (ℝ × ℝ)} (hx : Varies (d.map Prod.fst)) (hy : Varies (d.map Prod.snd)) {alt alt' : String}
    (ha : (alt, alt') ∈ [("two-sided", "two-sided"), ("less", "greater"), ("greater", "less")]) : ∃ r p : ℝ,
    stats.pearsonr (nums (d.map Prod.fst)) (nums (d.map Prod.snd)) alt = .ok (fin r, fin p) ∧
    stats.pearsonr (nums ((d.map Prod.fst).map fun t => -t)) (nums (d.map Prod.snd)) alt' = .ok (fin (-r), fin p) := by
  simp only [List.mem_cons, Prod.mk.injEq, List.not_mem_nil, or_false] at ha
  obtain ⟨h1, h2⟩ := stats.corr_mem hx hy
  have hg : stats.altOk alt := by rcases ha with h | h | h <;> simp [stats.altOk, h.1]
  have hl : stats.altOk alt' := by rcases ha with h | h | h <;> simp [stats.altOk, h.2]
  have e0 : ∀ l : List ℝ, (l.map fun t => -t) = l.map fun t => -1 * t + 0 := fun l => List.map_congr_left fun t _ => by ring
  have e1 : (d.map fun q => (-1 * q.1 + 0, q.2)).map Prod.fst = (d.map Prod.fst).map fun t => -1 * t + 0 := by simp [Function.comp_def]
  have e2 : (d.map fun q => (-1 * q.1 + 0, q.2)).map Prod.snd = d.map Prod.snd := by simp [Function.comp_def]
  have hd : d ≠ [] := by rintro rfl; obtain ⟨_, h, _⟩ := hx; simp at h
  have hx' : Varies ((d.map fun q => (-1 * q.1 + 0, q.2)).map Prod.fst) := by
    rw [e1]; exact stats.varies_affine hx (by norm_num) 0
  have hy' : Varies ((d.map fun q => (-1 * q.1 + 0, q.2)).map Prod.snd) := by rw [e2]; exact hy
  obtain ⟨p, ep, -⟩ := stats.pOf_ok h1 h2 (stats.two_le_length hx) hg
  have ev := stats.pearsonr_eval hx' hy' hl
  have er : corr (d.map fun q => (-1 * q.1 + 0, q.2)) = -corr d := by
    rw [stats.corr_affine_fst hd (by norm_num) 0, abs_neg, abs_one]; ring
  rw [e1, e2, er, List.length_map] at ev
  have key : stats.pOf (-corr d) d.length alt' = stats.pOf (corr d) d.length alt := by
    rcases ha with h | h | h <;> simp [stats.pOf, stats.pearsonP, h.1, h.2, sub_eq_add_neg]
  rw [key, ep] at ev
  refine ⟨corr d, p, by rw [stats.pearsonr_eval hx hy hg, ep]; rfl, ?_⟩
  rw [e0, ev]; rfl

/-! ### The Gumbel fits -/

theorem neg_neg_mul (a b : Num) : -(-a * b) = a * b := by
  cases a <;> cases b <;> simp only [neg_fin, neg_pinf, neg_ninf, neg_nan, fin_mul, nan_mul, mul_nan, fin_mul_pinf, fin_mul_ninf, pinf_mul_fin,
    ninf_mul_fin, pinf_mul_pinf, pinf_mul_ninf, ninf_mul_pinf, ninf_mul_ninf, neg_mul, neg_neg]
  all_goals
    rename_i x
    rcases lt_trichotomy x 0 with h | h | h
    · simp [scaleInf, h, h.not_gt]
    · simp [scaleInf, h]
    · simp [scaleInf, h, h.not_gt]

theorem nums_neg (xs : List ℝ) : mirrored xs = (xs.map fin).map fun t => -t := by
  simp only [mirrored, List.map_map, Function.comp_def, neg_fin]

/-- The functions that the two Gumbel fits solve are negatives of each other. -/
def Neg (F G : Num → M Num) : Prop := ∀ t : ℝ, (∃ e, F (fin t) = .error e ∧ G (fin t) = .error e) ∨
    ∃ v : ℝ, F (fin t) = .ok (fin v) ∧ G (fin t) = .ok (fin (-v))

theorem func_neg (hn : xs ≠ []) : Neg (fun t => gumbel_max.mleScaleFunc t (xs.map fin) (fin (sampleMean xs)))
    fun t => gumbel_min.mleScaleFunc t (mirrored xs) (fin (sampleMean (xs.map fun x => -x))) := by
  intro t
  by_cases ht : t = 0
  · subst ht
    refine Or.inl ⟨.zeroDivision, ?_, ?_⟩
    · obtain ⟨x, l, rfl⟩ := List.exists_cons_of_ne_nil hn
      simp only [gumbel_max.mleScaleFunc, List.map_cons, List.mapM_cons, neg_fin, fin_div_zero]
      rfl
    · obtain ⟨x, l, rfl⟩ := List.exists_cons_of_ne_nil hn
      simp only [gumbel_min.mleScaleFunc, mirrored, List.map_cons, List.mapM_cons, fin_div_zero]
      rfl
  · refine Or.inr ⟨_, gumbel_max.func_eval ht, ?_⟩
    refine (gumbel_min.func_eval ht).trans ?_
    simp only [List.map_map, Function.comp_def, neg_neg, List.map_id']

theorem fixedLoc_same (hn : xs ≠ []) (loc t : ℝ) : gumbel_max.mleScaleWithFixedLoc (fin t) (xs.map fin) (fin loc) =
    gumbel_min.mleScaleWithFixedLoc (fin t) (mirrored xs) (fin (-loc)) := by
  by_cases ht : t = 0
  · subst ht
    obtain ⟨x, l, rfl⟩ := List.exists_cons_of_ne_nil hn
    simp only [gumbel_max.mleScaleWithFixedLoc, gumbel_min.mleScaleWithFixedLoc, mirrored, List.map_cons, List.mapM_cons, fin_sub, fin_div_zero]
    rfl
  · rw [gumbel_max.fixedLoc_eval hn ht, mirrored, gumbel_min.fixedLoc_eval (ne_nil hn) ht]
    simp only [List.map_map, Function.comp_def, neg_neg, List.map_id']

theorem sign_neg (v : ℝ) : ∃ g : ℝ, mp.sign (fin v) = fin g ∧ mp.sign (fin (-v)) = fin (-g) := by
  rcases lt_trichotomy v 0 with h | h | h
  · exact ⟨-1, by simp [mp.sign, h, h.not_gt], by simp [mp.sign, h]⟩
  · exact ⟨0, by simp [mp.sign, h], by simp [mp.sign, h]⟩
  · exact ⟨1, by simp [mp.sign, h], by simp [mp.sign, h, h.not_gt]⟩

/-- States of the bracketing loop with opposite signs. -/
def Opp (st st' : Num × Num × Num × Num × Bool) : Prop := ∃ s1 g1 s2 g2 : ℝ, ∃ b : Bool,
  st = (fin s1, fin g1, fin s2, fin g2, b) ∧ st' = (fin s1, fin (-g1), fin s2, fin (-g2), b)

/-- Two results: the same error, or related values. -/
def Rel {α : Type} (R : α → α → Prop) (x y : M α) : Prop := (∃ e, x = .error e ∧ y = .error e) ∨ ∃ a b, x = .ok a ∧ y = .ok b ∧ R a b

theorem step_opp {F G : Num → M Num} (h : Neg F G) {st st' : Num × Num × Num × Num × Bool} (hs : Opp st st') :
    Rel Opp (gumbel_max.bracketStep F st) (gumbel_max.bracketStep G st') := by
  obtain ⟨s1, g1, s2, g2, b, rfl, rfl⟩ := hs
  simp only [gumbel_max.bracketStep, fin_mul]
  rcases h (9 / 10 * s1) with ⟨e, h1, h2⟩ | ⟨v, h1, h2⟩
  · rw [h1, h2]; exact Or.inl ⟨e, rfl, rfl⟩
  obtain ⟨g, e1, e2⟩ := sign_neg v
  simp only [h1, h2, ok_bind, e1, e2, fin_mul, zero_def, fin_le, neg_mul_neg]
  split_ifs with hc
  · exact Or.inr ⟨_, _, rfl, rfl, _, _, _, _, _, rfl, rfl⟩
  rcases h (11 / 10 * s2) with ⟨e, h1, h2⟩ | ⟨w, h1, h2⟩
  · rw [h1, h2]; exact Or.inl ⟨e, rfl, rfl⟩
  obtain ⟨g', e1', e2'⟩ := sign_neg w
  simp only [h1, h2, ok_bind, e1', e2', fin_mul, fin_le, neg_mul_neg]
  split_ifs with hc
  · exact Or.inr ⟨_, _, rfl, rfl, _, _, _, _, _, rfl, rfl⟩
  · exact Or.inr ⟨_, _, rfl, rfl, _, _, _, _, _, rfl, rfl⟩

theorem loop_opp {F G : Num → M Num} (h : Neg F G) : ∀ (n : ℕ) {st st' : Num × Num × Num × Num × Bool}, Opp st st' →
    Rel Opp (loop (fun st => pure (¬ st.2.2.2.2 = true)) (gumbel_max.bracketStep F) n st)
      (loop (fun st => pure (¬ st.2.2.2.2 = true)) (gumbel_max.bracketStep G) n st')
  | 0, _, _, _ => Or.inl ⟨_, rfl, rfl⟩
  | n + 1, st, st', hs => by
    have hb : st.2.2.2.2 = st'.2.2.2.2 := by obtain ⟨s1, g1, s2, g2, b, rfl, rfl⟩ := hs; rfl
    simp only [loop, pure_eq_ok, ok_bind, hb]
    split_ifs with hc
    · exact Or.inr ⟨_, _, rfl, rfl, hs⟩
    · rcases step_opp h hs with ⟨e, h1, h2⟩ | ⟨a, b, h1, h2, h3⟩
      · rw [h1, h2]; exact Or.inl ⟨e, rfl, rfl⟩
      · rw [h1, h2, ok_bind, ok_bind]; exact loop_opp h n h3

theorem solveFrom_neg {findroot : (Num → M Num) → Num → Num → M Num} (hf : SignFree findroot) {F G : Num → M Num} (h : Neg F G)
    (fuel : ℕ) (s0 : ℝ) : gumbel_max.solveFrom findroot fuel F (fin s0) = gumbel_max.solveFrom findroot fuel G (fin s0) := by
  simp only [gumbel_max.solveFrom]
  rcases h s0 with ⟨e, h1, h2⟩ | ⟨v, h1, h2⟩
  · rw [h1, h2]; rfl
  obtain ⟨g, e1, e2⟩ := sign_neg v
  simp only [h1, h2, ok_bind, e1, e2]
  rcases loop_opp h fuel (st := (fin s0, 0, fin s0, fin g, false)) (st' := (fin s0, 0, fin s0, fin (-g), false))
    ⟨s0, 0, s0, g, false, rfl, by simp [zero_def]⟩ with ⟨e, h3, h4⟩ | ⟨a, b, h3, h4, s1, g1, s2, g2, c, rfl, rfl⟩
  · rw [h3, h4]; rfl
  · rw [h3, h4]
    simp only [ok_bind, zero_def, fin_eq, neg_eq_zero]
    split_ifs
    · rfl
    · rfl
    · exact hf F G h s1 s2

theorem std_nil : stats.std [] = .error .zeroDivision := by
  have h : stats.len [] = fin 0 := by simp [stats.len]
  have h2 : mp.fsum [] = fin 0 := mp.fsum_fin []
  simp only [stats.std, stats.var, h, h2, fin_div_zero]
  rfl

/-- C80: `gumbel_min.mle` of the mirrored data is `gumbel_max.mle` with the location mirrored, whatever is fixed, errors included. -/
theorem gumbel_mle {findroot : (Num → M Num) → Num → Num → M Num} {findroot1 : (Num → M Num) → Num → M Num} (hf : SignFree findroot)
    (hf1 : SeesReals findroot1) (fuel : ℕ) (xs : List ℝ) (loc scale : Option ℝ) :
    gumbel_min.mle findroot findroot1 fuel (mirrored xs) (loc.map fun l => fin (-l)) (scale.map fin) =
      (fun r => (-r.1, r.2)) <$> gumbel_max.mle findroot findroot1 fuel (xs.map fin) (loc.map fin) (scale.map fin) := by
  have fit : ∀ s : Num, (do
      let ex ← (mirrored xs).mapM fun t => do return mp.exp (← t /. s)
      return (s * (← mp.log (← stats.mean ex)), s) : M (Num × Num)) = (fun r => (-r.1, r.2)) <$> (do
      let ex ← (xs.map fin).mapM fun t => do return mp.exp (← -t /. s)
      return (-s * (← mp.log (← stats.mean ex)), s) : M (Num × Num)) := by
    intro s
    simp only [nums_neg, List.mapM_map, Function.comp_def, map_bind, map_pure, neg_neg_mul]
  rcases eq_or_ne xs [] with rfl | hn
  · cases loc <;> cases scale
    · simp only [gumbel_min.mle, gumbel_max.mle, gumbel_min.solveMleScale, gumbel_max.solveMleScale, mirrored, List.map_nil, Option.map_none, mean_nil]
      rfl
    · exact fit _
    · simp only [gumbel_min.mle, gumbel_max.mle, mirrored, List.map_nil, Option.map_none, Option.map_some, std_nil]
      rfl
    · simp only [gumbel_min.mle, gumbel_max.mle, Option.map_some, ok_bind, pure_eq_ok]; rfl
  cases loc with
  | some l =>
    cases scale with
    | some s => simp only [gumbel_min.mle, gumbel_max.mle, Option.map_some, ok_bind, pure_eq_ok]; rfl
    | none =>
      have e1 : ((xs.map fin).map fun t => t - fin l) = (xs.map fun x => x - l).map fin := by
        simp only [List.map_map, Function.comp_def, fin_sub]
      have e2 : ((mirrored xs).map fun t => t - fin (-l)) = ((xs.map fun x => x - l).map fun x => -x).map fin := by
        simp only [mirrored, List.map_map, Function.comp_def, fin_sub]
        exact List.map_congr_left fun x _ => by congr 1; ring
      have hn1 : (xs.map fun x => x - l) ≠ [] := by simpa using hn
      simp only [gumbel_min.mle, gumbel_max.mle, Option.map_some, Option.map_none, e1, e2, std_fin hn1, std_fin (ne_nil hn1), sampleVar_neg hn1,
        ok_bind, map_bind, map_pure, neg_fin]
      rw [hf1 (fun t => gumbel_max.mleScaleWithFixedLoc t (xs.map fin) (fin l))
        (fun t => gumbel_min.mleScaleWithFixedLoc t (mirrored xs) (fin (-l))) fun t => fixedLoc_same hn l t]
  | none =>
    cases scale with
    | some s => exact fit _
    | none =>
      have e : gumbel_min.solveMleScale findroot fuel (mirrored xs) = gumbel_max.solveMleScale findroot fuel (xs.map fin) := by
        simp only [gumbel_min.solveMleScale, gumbel_max.solveMleScale]
        rw [show stats.mean (mirrored xs) = .ok (fin (sampleMean (xs.map fun x => -x))) from mean_fin (ne_nil hn),
          show stats.std (mirrored xs) = .ok (fin (Real.sqrt (sampleVar (xs.map fun x => -x)))) from std_fin (ne_nil hn), mean_fin hn, std_fin hn,
          sampleVar_neg hn]
        simp only [ok_bind]
        rw [solveFrom_neg hf (func_neg hn)]
      simp only [gumbel_min.mle, gumbel_max.mle, Option.map_none, e, map_bind]
      refine congrArg _ (funext fun s => ?_)
      have := fit s
      simpa only [map_bind, map_pure] using this

/-! ### The likelihoods -/

theorem mirror_nll {S S' : Set ℝ} {lp lp' : Num → M Num} {nll nll' : List Num → M Num} {l l' : ℝ → ℝ}
    (h : NllIsNegSum S lp nll) (h' : NllIsNegSum S' lp' nll') (hS : ∀ x ∈ S, -x ∈ S')
    (hl : ∀ x ∈ S, lp (fin x) = .ok (fin (l x))) (hl' : ∀ y ∈ S', lp' (fin y) = .ok (fin (l' y)))
    (e : ∀ x ∈ S, l' (-x) = l x) : MirrorNll S nll nll' := by
  have ev : ∀ {S : Set ℝ} {lp : Num → M Num} {nll : List Num → M Num} {l : ℝ → ℝ}, NllIsNegSum S lp nll →
      (∀ x ∈ S, lp (fin x) = .ok (fin (l x))) → ∀ xs : List ℝ, (∀ x ∈ xs, x ∈ S) → nll (xs.map fin) = .ok (fin (-(xs.map l).sum)) := by
    intro S lp nll l h hl xs hx
    obtain ⟨ls, h1, h2⟩ := h xs hx
    rw [h2]
    have : ls = xs.map l := by
      clear h2
      induction h1 with
      | nil => rfl
      | cons h3 _ ih =>
        rw [List.map_cons, ih fun x hm => hx x (List.mem_cons_of_mem _ hm)]
        rw [hl _ (hx _ List.mem_cons_self)] at h3
        rw [Num.fin.inj (Except.ok.inj h3)]
    rw [this]
  intro xs hx
  refine ⟨_, ev h hl xs hx, ?_⟩
  rw [mirrored, ev h' hl' _ (by
    intro y hy
    obtain ⟨x, hm, rfl⟩ := List.mem_map.1 hy
    exact hS x (hx x hm)), List.map_map]
  rw [List.map_congr_left fun x hm => show (l' ∘ fun x => -x) x = l x from e x (hx x hm)]

/-- C80: `normal.nll` -/
theorem normal_nll (loc : ℝ) (hs : 0 < s) : MirrorNll Set.univ (normal.nll · (fin loc) (fin s)) (normal.nll · (fin (-loc)) (fin s)) :=
  mirror_nll (normal.nll_spec hs) (normal.nll_spec hs) (fun _ _ => trivial) (fun x _ => normal.logpdf_eval hs x)
    (fun y _ => normal.logpdf_eval hs y) fun x _ => by
      rw [show (-x - -loc) / s = -((x - loc) / s) by ring, phi_even]

/-- C80: `hypsecant.nll` -/
theorem hypsecant_nll (loc : ℝ) (hs : 0 < s) : MirrorNll Set.univ (hypsecant.nll · (fin loc) (fin s)) (hypsecant.nll · (fin (-loc)) (fin s)) :=
  mirror_nll (hypsecant.nll_spec hs) (hypsecant.nll_spec hs) (fun _ _ => trivial) (fun x _ => hypsecant.logpdf_eval hs x)
    (fun y _ => hypsecant.logpdf_eval hs y) fun x _ => by
      rw [show (-x - -loc) / s = -((x - loc) / s) by ring]; simp [hypsecant.f]

/-- C80: `logistic.nll` -/
theorem logistic_nll (loc : ℝ) (hs : 0 < s) : MirrorNll Set.univ (logistic.nll · (fin loc) (fin s)) (logistic.nll · (fin (-loc)) (fin s)) :=
  mirror_nll (logistic.nll_spec hs) (logistic.nll_spec hs) (fun _ _ => trivial) (fun x _ => by rw [logistic.logpdf_eval hs])
    (fun y _ => by rw [logistic.logpdf_eval hs]) fun x _ => by
      rw [show (-x - -loc) / s = -((x - loc) / s) by ring]; 
      have : logistic.f (-((x - loc) / s)) = logistic.f ((x - loc) / s) := by
        simp only [logistic.f, neg_neg, Real.exp_neg]
        have := Real.exp_pos ((x - loc) / s)
        field_simp
        ring
      rw [this]

/-- C80: `gumbel_max.nll` and `gumbel_min.nll` -/
theorem gumbel_nll (loc : ℝ) (hs : 0 < s) : MirrorNll Set.univ (gumbel_max.nll · (fin loc) (fin s)) (gumbel_min.nll · (fin (-loc)) (fin s)) :=
  mirror_nll (gumbel_max.nll_spec hs) (gumbel_min.nll_spec hs) (fun _ _ => trivial)
    (fun x _ => by rw [gumbel_max.logpdf_eval hs, gumbel_max.log_f hs])
    (fun y _ => by rw [gumbel_min.logpdf_mirror, gumbel_max.logpdf_eval hs, gumbel_max.log_f hs]) fun x _ => by simp only [neg_neg]

/-- C80: `weibull_min.nll` and `weibull_max.nll` -/
theorem weibull_nll (loc : ℝ) (hk : 0 < k) (hs : 0 < s) :
    MirrorNll {x | loc < x} (weibull_min.nll · (fin k) (fin loc) (fin s)) (weibull_max.nll · (fin k) (fin (-loc)) (fin s)) :=
  mirror_nll (weibull_min.nll_spec hk hs) (weibull_max.nll_spec hk hs) (fun x (h : loc < x) => show -x < -loc from neg_lt_neg h)
    (fun x hx => weibull_min.logpdf_l hk hs hx) (fun y hy => weibull_max.logpdf_l hk hs hy) fun x _ => by
      rw [show - -x + -loc = x - loc by ring]

/-! ### The beta distribution: `1 - x` instead of `x` -/

theorem compl_data : beta.Data (xs.map fun x => 1 - x) ↔ beta.Data xs := by
  refine ⟨fun h => ?_, beta.compl⟩
  have := beta.compl h
  simpa only [List.map_map, Function.comp_def, sub_sub_cancel, List.map_id'] using this

/-- C80: `beta.nll` -/
theorem beta_nll {a b : ℝ} (ha : 0 < a) (hb : 0 < b) (xs : List ℝ) :
    beta.nll ((xs.map fun x => 1 - x).map fin) (fin b) (fin a) = beta.nll (xs.map fin) (fin a) (fin b) := by
  by_cases hx : beta.Data xs
  · rw [beta.nll_eval hx ha hb, beta.nll_eval (compl_data.2 hx) hb ha]
    simp only [beta.L, beta.S1, beta.S2, List.map_map, Function.comp_def, sub_sub_cancel, List.length_map, show betaFn b a = betaFn a b by rw [betaFn, betaFn, mul_comm, add_comm]]
    congr 2; ring
  · have hx' : ¬ beta.Data (xs.map fun x => 1 - x) := fun h => hx (compl_data.1 h)
    simp only [beta.nll, beta.validate_ok ha hb, beta.validate_ok hb ha, ok_bind, zero_def, one_def, beta.bounds_bad hx, beta.bounds_bad hx']
    rfl

theorem sampleMean_compl (hn : xs ≠ []) : sampleMean (xs.map fun x => 1 - x) = 1 - sampleMean xs := by
  rw [show (xs.map fun x => 1 - x) = xs.map fun x => 1 + -1 * x from List.map_congr_left fun x _ => by ring, affine.sampleMean_aff hn]; ring

theorem sampleVar_compl (hn : xs ≠ []) : sampleVar (xs.map fun x => 1 - x) = sampleVar xs := by
  rw [show (xs.map fun x => 1 - x) = xs.map fun x => 1 + -1 * x from List.map_congr_left fun x _ => by ring, affine.sampleVar_aff hn]; ring

/-- C80: `beta.mom` -/
theorem beta_mom (xs : List ℝ) : beta.mom ((xs.map fun x => 1 - x).map fin) = Prod.swap <$> beta.mom (xs.map fin) := by
  by_cases hx : beta.Data xs
  swap
  · have hx' : ¬ beta.Data (xs.map fun x => 1 - x) := fun h => hx (compl_data.1 h)
    simp only [beta.mom, zero_def, one_def, beta.bounds_bad hx, beta.bounds_bad hx']
    rfl
  rcases eq_or_ne xs [] with rfl | hn
  · simp only [List.map_nil, beta.fit_empty (findroot1 := fun _ _ => .ok 0) (findroot2 := fun _ _ => .ok 0) .none .none]; rfl
  have hn' : (xs.map fun x => 1 - x) ≠ [] := by simpa using hn
  have e1 : sampleMean ((xs.map fun x => 1 - x).map fun x => x ^ 2) = sampleVar xs + (1 - sampleMean xs) ^ 2 := by
    rw [← sampleVar_compl hn, ← sampleVar_eq hn', sampleMean_compl hn]; ring
  have e2 : sampleMean (xs.map fun x => x ^ 2) = sampleVar xs + sampleMean xs ^ 2 := by rw [← sampleVar_eq hn]; ring
  simp only [beta.mom, zero_def, one_def, beta.bounds hx, beta.bounds (compl_data.2 hx), ok_bind, mean_fin hn, mean_fin hn', mean_sq_fin hn,
    mean_sq_fin hn', mp.ipow_fin, fin_sub, e1, e2, sampleMean_compl hn, add_sub_cancel_right, map_bind, map_pure, Prod.swap]
  rw [show 1 - sampleMean xs - (sampleVar xs + (1 - sampleMean xs) ^ 2) = sampleMean xs - (sampleVar xs + sampleMean xs ^ 2) by ring,
    sub_sub_cancel]

theorem digamma_ok (a : Num) : (∃ v, mp.digamma a = .ok v) ∨ mp.digamma a = .error .valueError := by
  cases a <;> simp only [mp.digamma]
  · split_ifs
    · exact Or.inr rfl
    · exact Or.inl ⟨_, rfl⟩
  all_goals exact Or.inl ⟨_, rfl⟩

theorem mleFunc_ok (a b n t : Num) : (∃ v, beta.mleFunc a b n t = .ok v) ∨ beta.mleFunc a b n t = .error .valueError := by
  simp only [beta.mleFunc]
  rcases digamma_ok (a + b) with ⟨v, h⟩ | h <;> rw [h]
  · rcases digamma_ok a with ⟨w, h'⟩ | h' <;> rw [h']
    · exact Or.inl ⟨_, rfl⟩
    · exact Or.inr rfl
  · exact Or.inr rfl

theorem eqns_swap (n s t : Num) : (fun a b => (do return (← beta.mleFunc a b n s, ← beta.mleFunc b a n t) : M (Num × Num))) =
    fun a b => Prod.swap <$> (fun a b => (do return (← beta.mleFunc a b n t, ← beta.mleFunc b a n s) : M (Num × Num))) b a := by
  funext a b
  rcases mleFunc_ok a b n s with ⟨v, h⟩ | h <;> rcases mleFunc_ok b a n t with ⟨w, h'⟩ | h' <;> simp only [h, h'] <;> rfl

theorem both_swap {findroot2 : (Num → Num → M (Num × Num)) → Num × Num → M (Num × Num)} (hf : SwapFree findroot2) (hn : xs ≠ [])
    (hx : beta.Data xs) (pa pb : Param) : beta.mleBoth findroot2 ((xs.map fun x => 1 - x).map fin) (fin (1 - sampleMean xs)) pb pa =
    Prod.swap <$> beta.mleBoth findroot2 (xs.map fin) (fin (sampleMean xs)) pa pb := by
  have hn' : (xs.map fun x => 1 - x) ≠ [] := by simpa using hn
  simp only [beta.mleBoth, beta.logs hx, beta.log1ms hx, beta.logs (compl_data.2 hx), beta.log1ms (compl_data.2 hx), ok_bind, mp.fsum_fin,
    len_fin, var_fin hn, var_fin hn', sampleVar_compl hn, one_def, fin_sub, fin_mul, List.length_map, map_bind]
  simp only [sub_sub_cancel, List.map_map, Function.comp_def]
  rw [mul_comm (1 - sampleMean xs)]
  refine congrArg _ (funext fun c => ?_)
  rw [eqns_swap, hf]

/-- C80: `beta.mle`, whatever is fixed, errors included -/
theorem beta_mle {findroot1 : (Num → M Num) → Num → M Num} {findroot2 : (Num → Num → M (Num × Num)) → Num × Num → M (Num × Num)}
    (hf : SwapFree findroot2) (xs : List ℝ) (pa pb : Param) : beta.mle findroot1 findroot2 ((xs.map fun x => 1 - x).map fin) pb pa =
    Prod.swap <$> beta.mle findroot1 findroot2 (xs.map fin) pa pb := by
  by_cases hx : beta.Data xs
  swap
  · have hx' : ¬ beta.Data (xs.map fun x => 1 - x) := fun h => hx (compl_data.1 h)
    simp only [beta.mle, zero_def, one_def, beta.bounds_bad hx, beta.bounds_bad hx']
    rfl
  rcases eq_or_ne xs [] with rfl | hn
  · simp only [List.map_nil, beta.fit_empty]; rfl
  have hn' : (xs.map fun x => 1 - x) ≠ [] := by simpa using hn
  have e : ((xs.map fun x => 1 - x).map fin).map (fun t => fin 1 - t) = xs.map fin := by
    simp only [List.map_map, Function.comp_def, fin_sub, sub_sub_cancel]
  have e' : (xs.map fin).map (fun t => fin 1 - t) = (xs.map fun x => 1 - x).map fin := by
    simp only [List.map_map, Function.comp_def, fin_sub]
  have ck : ∀ p, beta.checkFixed p = .ok () ∨ beta.checkFixed p = .error .valueError := by
    intro p
    cases p with
    | none => exact Or.inl rfl
    | initial w => exact Or.inl rfl
    | fixed w => simp only [beta.checkFixed]; split_ifs; exacts [Or.inr rfl, Or.inl rfl]
  simp only [beta.mle, zero_def, one_def, beta.bounds hx, beta.bounds (compl_data.2 hx), ok_bind, mean_fin hn, mean_fin hn', sampleMean_compl hn]
  rcases ck pa with h1 | h1 <;> rcases ck pb with h2 | h2 <;> simp only [h1, h2, ok_bind]
  · cases pa <;> cases pb <;> simp only [e, e', fin_sub, sub_sub_cancel, map_bind, map_pure, Prod.swap_prod_mk]
    all_goals exact both_swap hf hn hx _ _
  all_goals rfl

/-- The assumptions about the root finders can be met: by one that returns its starting value. -/
example : SignFree (fun _ s _ => .ok s) ∧ SwapFree (fun _ s => .ok s) ∧ SeesReals (fun _ s => .ok s) :=
  ⟨fun _ _ _ _ _ => rfl, fun _ _ _ => rfl, fun _ _ _ _ => rfl⟩

/-- There are data for the Weibull and the beta fits. -/
example : (∀ x ∈ [(1:ℝ), 2], x ∈ {x | (0:ℝ) < x}) ∧ beta.Data [1 / 2, 1 / 3] := by
  constructor
  · intro x hx; simp at hx; rcases hx with rfl | rfl <;> simp
  · intro x hx; simp at hx; rcases hx with rfl | rfl <;> norm_num
end Mpsci.mirror
