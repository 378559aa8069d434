import Verif.Lemmas.Order
import Verif.Model.Stats.Boxcox
import Verif.Model.Stats.Goftests
import Verif.Model.Stats.PValues
import Verif.Model.Stats.Pearsonr
import Verif.Model.Fit.Positive

/-! C77, the functions of `mpsci.stats` and the fits that use a power mean or paired lists. -/

namespace Mpsci.order

open Classical Num Spec common

set_option linter.unusedSimpArgs false
set_option linter.unusedTactic false
set_option linter.unreachableTactic false
set_option linter.unusedVariables false

theorem mean_order : OrderFree (stats.mean ·) := by
  refine OrderFree.of fun x y h => ?_
  order_simp h; order_free h

theorem var_order (ddof : Num) : OrderFree (stats.var · ddof) := by
  refine OrderFree.of fun x y h => ?_
  order_simp h; order_free h

theorem std_order (ddof : Num) : OrderFree (stats.std · ddof) := by
  refine OrderFree.of fun x y h => ?_
  order_simp h; order_free h

theorem variation_order (ddof : Num) : OrderFree (stats.variation · ddof) := by
  refine OrderFree.of fun x y h => ?_
  simp only [stats.variation]; order_simp h; order_free h

theorem gmean_imp {x y : List Num} (h : x.Perm y) : Imp (stats.gmean x) (stats.gmean y) := by
  simp only [stats.gmean]; order_simp h; order_free h

theorem hmean_imp {x y : List Num} (h : x.Perm y) : Imp (stats.hmean x) (stats.hmean y) := by
  simp only [stats.hmean, h.countP_eq]; order_simp h; order_free h

theorem gmean_order : OrderFree (stats.gmean ·) := OrderFree.of fun _ _ h => gmean_imp h

theorem hmean_order : OrderFree (stats.hmean ·) := OrderFree.of fun _ _ h => hmean_imp h

theorem pmean_imp {x y : List Num} (h : x.Perm y) (h1 : py.min x = py.min y) (h2 : py.max x = py.max y) (p : Num) :
    Imp (stats.pmean x p) (stats.pmean y p) := by
  simp only [stats.pmean, h1, h2]
  split
  · exact gmean_imp h
  split
  · rw [mean_perm h]; exact Imp.refl _
  split
  · exact hmean_imp h
  split
  · exact Imp.refl _
  order_free h

theorem pmean_order (p : Num) : OrderFree (stats.pmean · p) :=
  OrderFree.ofSorted fun _ _ h h1 h2 _ => pmean_imp h h1 h2 p

theorem lehmer_mean_order (p : Num) : OrderFree (stats.lehmerMean · p) := by
  refine OrderFree.ofSorted fun x y h h1 h2 h3 => ?_
  simp only [stats.lehmerMean, h1, h2, exists_perm h]
  split
  · exact Imp.refl _
  split
  · exact hmean_imp h
  split
  · exact gmean_imp h
  split
  · rw [mean_perm h]; exact Imp.refl _
  split
  · exact Imp.refl _
  order_free h

theorem boxcox_llf_order (lam : Num) : OrderFree (stats.boxcoxLlf lam) := by
  refine OrderFree.of fun x y h => ?_
  simp only [stats.boxcoxLlf, stats.boxcoxData]
  order_simp h
  refine ImpL.bind (mapM_impL h _) fun l l' hl => ?_
  order_simp hl
  split
  · simp only [pure_eq_ok, ok_bind, var_perm hl]; exact Imp.refl _
  · order_free h

theorem yeojohnson_llf_order (lam : Num) : OrderFree (stats.yeojohnsonLlf lam) := by
  refine OrderFree.of fun x y h => ?_
  simp only [stats.yeojohnsonLlf]
  order_simp h
  order_free h

theorem unique_counts_order {α : Type} [LinearOrder α] {x y : List α} (h : x.Perm y) : stats.uniqueCounts x = stats.uniqueCounts y := by
  have e : x.mergeSort (fun a b => a ≤ b) = y.mergeSort (fun a b => a ≤ b) := by
    refine List.Perm.eq_of_pairwise (le := (· ≤ ·)) (fun a b _ _ h1 h2 => le_antisymm h1 h2) ?_ ?_
      ((List.mergeSort_perm x _).trans (h.trans (List.mergeSort_perm y _).symm))
    · simpa using List.pairwise_mergeSort (le := fun a b : α => decide (a ≤ b)) (by intro a b c; simpa using le_trans) (by intro a b; simpa using le_total a b) x
    · simpa using List.pairwise_mergeSort (le := fun a b : α => decide (a ≤ b)) (by intro a b c; simpa using le_trans) (by intro a b; simpa using le_total a b) y
  simp only [stats.uniqueCounts, e]

theorem totals_perm {x x' y y' : List Num} (h : x.Perm x') (h' : y.Perm y') (rel : ℝ) :
    stats.checkTotals x y rel = stats.checkTotals x' y' rel := by
  simp only [stats.checkTotals, fsum_perm h, fsum_perm h']

theorem zip_fst_snd (z : List (ℝ × ℝ)) : (z.map fun q => fin q.1).zip (z.map fun q => fin q.2) = z.map fun q => (fin q.1, fin q.2) := by
  rw [← List.zip_map', List.zip]

theorem chisquare_imp {z w : List (ℝ × ℝ)} (h : z.Perm w) (rel : ℝ) :
    Imp (stats.chisquareStat (z.map fun q => fin q.1) (z.map fun q => fin q.2) rel)
      (stats.chisquareStat (w.map fun q => fin q.1) (w.map fun q => fin q.2) rel) := by
  have h' := h.map fun q => (fin q.1, fin q.2)
  simp only [stats.chisquareStat, zip_fst_snd, totals_perm (h.map fun q => fin q.1) (h.map fun q => fin q.2)]
  order_free h'

theorem gtest_imp {z w : List (ℝ × ℝ)} (h : z.Perm w) (rel : ℝ) :
    Imp (stats.gtestStat (z.map fun q => fin q.1) (z.map fun q => fin q.2) rel)
      (stats.gtestStat (w.map fun q => fin q.1) (w.map fun q => fin q.2) rel) := by
  have h' := h.map fun q => (fin q.1, fin q.2)
  simp only [stats.gtestStat, zip_fst_snd, totals_perm (h.map fun q => fin q.1) (h.map fun q => fin q.2)]
  order_free h'

theorem chisquare_order (rel : ℝ) : PairOrderFree (stats.chisquare · · rel) := by
  intro z w h
  refine Imp.bind (chisquare_imp h rel) fun u => ?_
  simp only [stats.gofP, List.length_map, h.length_eq]; exact Imp.refl _

theorem gtest_order (rel : ℝ) : PairOrderFree (stats.gtest · · rel) := by
  intro z w h
  refine Imp.bind (gtest_imp h rel) fun u => ?_
  simp only [stats.gofP, List.length_map, h.length_eq]; exact Imp.refl _

theorem weighted_mean_order : PairOrderFree fun x w => stats.mean x (some w) := by
  intro z w h
  have h' := h.map fun q => (fin q.1, fin q.2)
  simp only [stats.mean, List.length_map, h.length_eq, ← List.map_uncurry_zip_eq_zipWith, zip_fst_snd, fsum_map_perm h', fsum_perm (h.map fun q => fin q.2)]
  exact fun v hv => hv

theorem weighted_gmean_order : PairOrderFree fun x w => stats.gmean x (some w) := by
  intro z w h
  have h' := h.map fun q => (fin q.1, fin q.2)
  simp only [stats.gmean, zip_fst_snd, fsum_perm (h.map fun q => fin q.2), exists_perm (h.map fun q => fin q.1)]
  order_free h'

theorem allSame_iff (x : List ℝ) : stats.allSame (x.map fin) ↔ ∀ s ∈ x, ∀ t ∈ x, s = t := by
  cases x with
  | nil => simp [stats.allSame]
  | cons a l =>
    simp only [List.map_cons, stats.allSame, List.mem_map, forall_exists_index, and_imp, forall_apply_eq_imp_iff₂, fin_eq]
    constructor
    · intro h s hs t ht
      have key : ∀ r ∈ a :: l, a = r := fun r hr => (List.mem_cons.1 hr).elim (fun e => e.symm) (h r)
      exact (key s hs).symm.trans (key t ht)
    · exact fun h t ht => h a (List.mem_cons_self ..) t (List.mem_cons_of_mem _ ht)

theorem allSame_perm {x y : List ℝ} (h : x.Perm y) : stats.allSame (x.map fin) = stats.allSame (y.map fin) := by
  rw [eq_iff_iff, allSame_iff, allSame_iff]; simp only [h.mem_iff]

theorem pearsonr_long (x y : List Num) (alternative : String) (h : x.length ≠ 2) : stats.pearsonr x y alternative = (do
    if alternative ≠ "two-sided" ∧ alternative ≠ "less" ∧ alternative ≠ "greater" then throw .valueError
    if x.length ≠ y.length then throw .valueError
    if stats.allSame x ∨ stats.allSame y then return (nan, nan)
    let xmean ← mp.fsum x /. fin x.length
    let ymean ← mp.fsum y /. fin y.length
    let xm := x.map fun t => t - xmean
    let ym := y.map fun t => t - ymean
    let num := mp.fsum (List.zipWith (fun s t => s * t) xm ym)
    let den ← mp.sqrt (mp.fsum (xm.map fun t => t * t) * mp.fsum (ym.map fun t => t * t))
    let r ← num /. den
    return (r, ← stats.pearsonP r x.length alternative)) := by
  unfold stats.pearsonr
  match x, h with
  | [], _ => rfl
  | [a], _ => rfl
  | a :: b :: c :: l, _ => rfl

theorem zip_sub (z : List (ℝ × ℝ)) (a b : Num) :
    List.zipWith (fun s t => s * t) ((z.map fun q => fin q.1).map fun t => t - a) ((z.map fun q => fin q.2).map fun t => t - b) =
      z.map fun q => (fin q.1 - a) * (fin q.2 - b) := by
  induction z with
  | nil => rfl
  | cons q z ih => simp only [List.map_cons, List.zipWith_cons_cons, ih]

theorem sign_neg (x : ℝ) : ∃ r : ℝ, mp.sign (fin x) = fin r ∧ mp.sign (fin (-x)) = fin (-r) := by
  rcases lt_trichotomy x 0 with h | h | h
  · exact ⟨-1, by simp [mp.sign, h, h.le, not_lt.2 h.le], by simp [mp.sign, h, one_def]⟩
  · exact ⟨0, by simp [mp.sign, h, zero_def], by simp [mp.sign, h, zero_def]⟩
  · exact ⟨1, by simp [mp.sign, h, one_def], by simp [mp.sign, h, not_lt.2 h.le]⟩

theorem sign_mul_swap (a b c d : ℝ) :
    mp.sign (fin a - fin b) * mp.sign (fin c - fin d) = mp.sign (fin b - fin a) * mp.sign (fin d - fin c) := by
  obtain ⟨r, h1, h2⟩ := sign_neg (a - b)
  obtain ⟨s, h3, h4⟩ := sign_neg (c - d)
  rw [neg_sub] at h2 h4
  simp only [fin_sub, h1, h2, h3, h4, fin_mul, neg_mul_neg]

theorem pearsonr_order (alternative : String) : PairOrderFree (stats.pearsonr · · alternative) := by
  intro z w h
  by_cases hl : z.length = 2
  · obtain ⟨p, q, rfl⟩ := List.length_eq_two.1 hl
    obtain ⟨r, s, rfl⟩ := List.length_eq_two.1 (h.length_eq ▸ hl)
    have hc : (p = r ∧ q = s) ∨ (p = s ∧ q = r) := by
      have hp : p = r ∨ p = s := by simpa using h.mem_iff.1 (List.mem_cons_self (a := p) (l := [q]))
      rcases hp with rfl | rfl
      · left; exact ⟨rfl, by simpa using h⟩
      · right; exact ⟨rfl, by simpa using h.trans (List.Perm.swap p r [])⟩
    rcases hc with ⟨rfl, rfl⟩ | ⟨rfl, rfl⟩
    · exact Imp.refl _
    · have e : ∀ s t : ℝ × ℝ, mp.sign (fin s.1 - fin t.1) * mp.sign (fin s.2 - fin t.2) = mp.sign (fin t.1 - fin s.1) * mp.sign (fin t.2 - fin s.2) := by
        exact fun s t => sign_mul_swap s.1 t.1 s.2 t.2
      have a1 := allSame_perm (h.map Prod.fst)
      have a2 := allSame_perm (h.map Prod.snd)
      simp only [List.map_cons, List.map_nil] at a1 a2
      simp only [stats.pearsonr, List.map_cons, List.map_nil, a1, a2, e p q, List.length_cons]
      exact Imp.refl _
  · have hx := h.map fun q => fin q.1
    have hy := h.map fun q => fin q.2
    have hx' := fun a : Num => hx.map fun t => t - a
    have hy' := fun a : Num => hy.map fun t => t - a
    have a1 := allSame_perm (h.map Prod.fst)
    have a2 := allSame_perm (h.map Prod.snd)
    simp only [List.map_map, Function.comp_def] at a1 a2
    beta_reduce
    rw [pearsonr_long _ _ _ (by simpa using hl), pearsonr_long _ _ _ (by simpa [← h.length_eq] using hl)]
    simp only [a1, a2, zip_sub, fsum_map_perm h, fsum_perm hx, fsum_perm hy, fsum_map_perm (hx' _), fsum_map_perm (hy' _), hx.length_eq, hy.length_eq]
    exact fun v hv => hv

/-- The order within a group does not matter. -/
theorem anova_within {g k : List (List Num)} (h : List.Forall₂ List.Perm g k) : stats.anovaOneway g = stats.anovaOneway k := by
  have hm : ∀ {β : Type} (f : List Num → β), (∀ x y, x.Perm y → f x = f y) → g.map f = k.map f := by
    intro β f hf
    induction h with
    | nil => rfl
    | cons h1 _ ih => simp only [List.map_cons, hf _ _ h1, ih]
  have hM : ∀ {β : Type} (f : List Num → M β), (∀ x y, x.Perm y → f x = f y) → g.mapM f = k.mapM f := by
    intro β f hf
    clear hm
    induction h with
    | nil => rfl
    | cons h1 _ ih => simp only [List.mapM_cons, hf _ _ h1, ih]
  simp only [stats.anovaOneway, stats.anovaF, h.length_eq, hm List.length fun x y h => h.length_eq, hm mp.fsum fun x y h => fsum_perm h,
    hm _ fun x y h => fsum_map_perm h _]
  have e : ∀ m : Num, (g.mapM fun group => do
      let m' ← mp.fsum group /. fin group.length
      return fin group.length * ((m' - m) * (m' - m))) = k.mapM fun group => do
      let m' ← mp.fsum group /. fin group.length
      return fin group.length * ((m' - m) * (m' - m)) := fun m => hM _ fun x y h => by simp only [fsum_perm h, h.length_eq]
  simp only [e]

/-- The order of the groups does not matter. -/
theorem anova_groups {g k : List (List Num)} (h : g.Perm k) (v : Num × Num) (hv : stats.anovaOneway g = .ok v) :
    stats.anovaOneway k = .ok v := by
  revert v
  change Imp _ _
  have e := fun {β : Type} (f : List Num → β) => (h.map f)
  simp only [stats.anovaOneway, stats.anovaF, h.length_eq, (h.map List.length).sum_eq, fsum_map_perm h]
  order_free h

/-- A shift of the data: the results are all real or all the same. -/
theorem shift_sorted {x y : List ℝ} (h : x.Perm y) (g : Num → Num)
    (hg : (∃ r : ℝ → ℝ, ∀ t, g (fin t) = fin (r t)) ∨ ∃ c, ∀ t, g (fin t) = c) :
    py.min ((x.map fin).map g) = py.min ((y.map fin).map g) ∧ py.max ((x.map fin).map g) = py.max ((y.map fin).map g) ∧
      py.sorted ((x.map fin).map g) = py.sorted ((y.map fin).map g) := by
  rcases hg with ⟨r, hr⟩ | ⟨c, hc⟩
  · have e : ∀ z : List ℝ, (z.map fin).map g = (z.map r).map fin := fun z => by simp only [List.map_map, Function.comp_def, hr]
    rw [e, e]
    exact ⟨min_fin (h.map r), max_fin (h.map r), sorted_perm (h.map r)⟩
  · have e : ∀ z : List ℝ, (z.map fin).map g = List.replicate z.length c := fun z => by
      simp only [List.map_map, Function.comp_def, hc, List.map_const']
    rw [e, e, h.length_eq]; exact ⟨rfl, rfl, rfl⟩

theorem weibull_k_imp {x y : List Num} (h : x.Perm y) (k : Num) : Imp (weibull_common.mleKEqn1 k x) (weibull_common.mleKEqn1 k y) := by
  simp only [weibull_common.mleKEqn1, len_perm h]
  refine mapM_mapM_bind h _ _ fun l1 l2 k1 k2 p1 p2 p => ?_
  simp only [fsum_perm p1, fsum_perm p2, fsum_map_perm (zip_swap_perm p)]
  exact Imp.refl _

theorem weibull_imp {findroot} (h1 : SeesValues findroot) {x y : List Num} (h : x.Perm y) (hmin : py.min x = py.min y)
    (hmax : py.max x = py.max y) (hs : py.sorted x = py.sorted y) (k : Option Num) (loc : Num) (scale : Option Num) :
    Imp (weibull_common.mleShifted findroot x k loc scale) (weibull_common.mleShifted findroot y k loc scale) := by
  simp only [weibull_common.mleShifted]
  split
  · exact Imp.refl _
  split
  · exact Imp.refl _
  cases k <;> cases scale <;> simp only
  · exact Imp.bind (findroot_imp h1 (fun t => weibull_k_imp h t) (fun t => weibull_k_imp h.symm t) _) fun u =>
      Imp.bind (pmean_imp h hmin hmax u) fun w => Imp.refl _
  · simp only [weibull_common.median, hs, weibull_common.mleKEqn2]
    order_simp h
    order_free h
  · exact Imp.bind (pmean_imp h hmin hmax _) fun w => Imp.refl _
  · exact Imp.refl _

theorem weibull_min_mle {findroot} (h1 : SeesValues findroot) (k loc scale : Option Num) :
    OrderFree (weibull_min.mle findroot · k loc scale) := by
  intro x y h
  cases loc with
  | none => exact Imp.refl _
  | some loc =>
    have hs := shift_sorted h (fun t => t - loc) (by
      cases loc with
      | fin l => exact Or.inl ⟨fun t => t - l, fun t => rfl⟩
      | pinf => exact Or.inr ⟨ninf, fun t => rfl⟩
      | ninf => exact Or.inr ⟨pinf, fun t => rfl⟩
      | nan => exact Or.inr ⟨nan, fun t => rfl⟩)
    exact bounds_bind (h.map fin) _ _ _ _ (weibull_imp h1 ((h.map fin).map _) hs.1 hs.2.1 hs.2.2 _ _ _)

theorem weibull_max_mle {findroot} (h1 : SeesValues findroot) (k loc scale : Option Num) :
    OrderFree (weibull_max.mle findroot · k loc scale) := by
  intro x y h
  cases loc with
  | none => exact Imp.refl _
  | some loc =>
    have hs := shift_sorted h (fun t => -t + loc) (by
      cases loc with
      | fin l => exact Or.inl ⟨fun t => -t + l, fun t => rfl⟩
      | pinf => exact Or.inr ⟨pinf, fun t => rfl⟩
      | ninf => exact Or.inr ⟨ninf, fun t => rfl⟩
      | nan => exact Or.inr ⟨nan, fun t => rfl⟩)
    exact bounds_bind (h.map fin) _ _ _ _ (weibull_imp h1 ((h.map fin).map _) hs.1 hs.2.1 hs.2.2 _ _ _)

theorem burr12_grad_imp {x y : List Num} (h : x.Perm y) (c d scale : Num) : Imp (burr12.nllGrad x c d scale) (burr12.nllGrad y c d scale) := by
  simp only [burr12.nllGrad]
  order_simp h
  refine ImpL.bind (mapM_impL h _) fun l l' hl => ?_
  order_simp hl
  refine ImpL.bind (mapM_impL h _) fun z z' hz => ?_
  refine mapM_zip_bind hz _ fun r r' hr hp => ?_
  have hp' := zip_swap_perm hp
  order_simp hr
  order_free hz

theorem bracket_imp {F G : Num → M Num} (hF : ∀ t, Imp (F t) (G t)) (test : Num → Prop) (eps : Num) (fuel : ℕ) :
    Imp (burr12.bracket F test eps fuel) (burr12.bracket G test eps fuel) := by
  simp only [burr12.bracket]
  exact Imp.bind (hF _) fun u => Imp.bind (loop_imp (fun s => Imp.bind (hF _) fun w => Imp.refl _) _ _) fun w => Imp.refl _

theorem burr12_scale_imp {x y : List Num} (h : x.Perm y) (c d scale : Num) : Imp (burr12.scaleEqCD scale x c d) (burr12.scaleEqCD scale y c d) := by
  simp only [burr12.scaleEqCD]; order_free h

theorem burr12_c_imp {x y : List Num} (h : x.Perm y) (c d scale : Num) : Imp (burr12.cEq c x d scale) (burr12.cEq c y d scale) := by
  simp only [burr12.cEq]; order_simp h; order_free h

theorem burr12_d_imp {x y : List Num} (h : x.Perm y) (c scale : Num) : Imp (burr12.dFor x c scale) (burr12.dFor y c scale) := by
  simp only [burr12.dFor]; order_free h

theorem burr12_cs_imp {x y : List Num} (h : x.Perm y) (c scale : Num) : Imp (burr12.cEqScaleFixed c x scale) (burr12.cEqScaleFixed c y scale) :=
  Imp.bind (burr12_d_imp h c scale) fun d => burr12_c_imp h c d scale

theorem burr12_ds_imp {findroot} (h1 : SeesValues findroot) {x y : List Num} (h : x.Perm y) (c scale : Num) :
    Imp (burr12.mleDScale findroot x c scale) (burr12.mleDScale findroot y c scale) := by
  simp only [burr12.mleDScale, burr12.eqScale]; order_simp h; order_free h

theorem burr12_gs_imp {findroot2} (h2 : SeesValues2 findroot2) {x y : List Num} (h : x.Perm y) (d c scale : Num) :
    Imp (burr12.mleCScale findroot2 x d c scale) (burr12.mleCScale findroot2 y d c scale) :=
  findroot2_imp h2 (fun t u => Imp.bind (burr12_grad_imp h t d u) fun v => Imp.refl _)
    (fun t u => Imp.bind (burr12_grad_imp h.symm t d u) fun v => Imp.refl _) _

theorem burr12_mle {findroot findrootB findroot2 findroot3} (h1 : SeesValues findroot)
    (hB : SeesValues fun F (p : Num × Num) => findrootB F p.1 p.2) (h2 : SeesValues2 findroot2) (h3 : SeesValues3 findroot3)
    (eps : Num) (fuel : ℕ) (c d scale : Param) :
    OrderFree (burr12.mle findroot findrootB findroot2 findroot3 eps fuel · c d scale) := by
  refine OrderFree.of fun x y h => bounds_bind h _ _ _ _ ?_
  have A : ∀ c d : Num, Imp (do
      let (lo, hi) ← burr12.findScaleBracket eps fuel x c d
      let scale ← findrootB (fun s => burr12.scaleEqCD s x c d) lo hi
      return (c, d, scale)) (do
      let (lo, hi) ← burr12.findScaleBracket eps fuel y c d
      let scale ← findrootB (fun s => burr12.scaleEqCD s y c d) lo hi
      return (c, d, scale)) := fun c d =>
    Imp.bind (bracket_imp (fun t => burr12_scale_imp h c d t) _ _ _) fun u =>
      Imp.bind (findrootB_imp hB (fun t => burr12_scale_imp h c d t) (fun t => burr12_scale_imp h.symm c d t) _ _) fun w => Imp.refl _
  have B : ∀ d s : Num, Imp (do
      let (lo, hi) ← burr12.findCBracket eps fuel x d s
      let c ← findrootB (fun t => burr12.cEq t x d s) lo hi
      return (c, d, s)) (do
      let (lo, hi) ← burr12.findCBracket eps fuel y d s
      let c ← findrootB (fun t => burr12.cEq t y d s) lo hi
      return (c, d, s)) := fun d s =>
    Imp.bind (bracket_imp (fun t => burr12_c_imp h t d s) _ _ _) fun u =>
      Imp.bind (findrootB_imp hB (fun t => burr12_c_imp h t d s) (fun t => burr12_c_imp h.symm t d s) _ _) fun w => Imp.refl _
  have C : ∀ s : Num, Imp (do
      let (lo, hi) ← burr12.findCBracketScaleFixed eps fuel x s
      let c ← findrootB (fun t => burr12.cEqScaleFixed t x s) lo hi
      let d ← burr12.dFor x c s
      return (c, d, s)) (do
      let (lo, hi) ← burr12.findCBracketScaleFixed eps fuel y s
      let c ← findrootB (fun t => burr12.cEqScaleFixed t y s) lo hi
      let d ← burr12.dFor y c s
      return (c, d, s)) := fun s =>
    Imp.bind (bracket_imp (fun t => burr12_cs_imp h t s) _ _ _) fun u =>
      Imp.bind (findrootB_imp hB (fun t => burr12_cs_imp h t s) (fun t => burr12_cs_imp h.symm t s) _ _) fun w =>
        Imp.bind (burr12_d_imp h _ _) fun _ => Imp.refl _
  cases c <;> cases d <;> cases scale <;> simp only <;> first
    | exact Imp.refl _
    | exact Imp.bind (Imp.refl _) fun u => A _ _
    | exact Imp.bind (Imp.refl _) fun u => B _ _
    | exact Imp.bind (Imp.refl _) fun u => C _
    | exact Imp.bind (Imp.refl _) fun u => Imp.bind (burr12_d_imp h _ _) fun _ => Imp.refl _
    | exact Imp.bind (Imp.refl _) fun u => Imp.bind (burr12_ds_imp h1 h _ _) fun _ => Imp.refl _
    | exact Imp.bind (Imp.refl _) fun u => Imp.bind (burr12_gs_imp h2 h _ _ _) fun _ => Imp.refl _
    | exact Imp.bind (Imp.refl _) fun u =>
        findroot3_imp h3 (fun r t u => burr12_grad_imp h r t u) (fun r t u => burr12_grad_imp h.symm r t u) _

end Mpsci.order
