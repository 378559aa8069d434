import Verif.Model.Stats.Basic
import Verif.Lemmas.Fun.Powm1
import Verif.Spec.Stats
import Mathlib.Analysis.Convex.SpecificFunctions.Basic

namespace Mpsci.stats

open Classical Num fun_ Spec

/-- data with weights -/
noncomputable def dat (x : List ℝ) (W : Option (List ℝ)) : List (ℝ × ℝ) :=
  x.zip (W.getD (List.replicate x.length 1))

noncomputable def avg (d : List (ℝ × ℝ)) (φ : ℝ → ℝ) : ℝ :=
  (d.map fun q => q.2 * φ q.1).sum / (d.map Prod.snd).sum

/-- nonnegative weights with positive sum -/
def Good (d : List (ℝ × ℝ)) : Prop := (∀ q ∈ d, 0 ≤ q.2) ∧ 0 < (d.map Prod.snd).sum

variable {d : List (ℝ × ℝ)} {φ ψ : ℝ → ℝ}

theorem avg_mono (h : Good d) (hφ : ∀ q ∈ d, φ q.1 ≤ ψ q.1) : avg d φ ≤ avg d ψ := by
  unfold avg
  refine div_le_div_of_nonneg_right ?_ h.2.le
  exact List.sum_le_sum fun q hq => mul_le_mul_of_nonneg_left (hφ q hq) (h.1 q hq)

theorem avg_congr (hφ : ∀ q ∈ d, φ q.1 = ψ q.1) : avg d φ = avg d ψ := by
  unfold avg
  congr 2
  exact List.map_congr_left fun q hq => by rw [hφ q hq]

theorem avg_const (h : Good d) (c : ℝ) : avg d (fun _ => c) = c := by
  unfold avg
  rw [List.sum_map_mul_right, mul_div_assoc, mul_div_cancel₀]
  exact h.2.ne'

theorem avg_add : avg d (fun t => φ t + ψ t) = avg d φ + avg d ψ := by
  unfold avg
  rw [← add_div, ← List.sum_map_add]
  simp only [mul_add]

theorem avg_mul (c : ℝ) : avg d (fun t => c * φ t) = c * avg d φ := by
  unfold avg
  rw [← mul_div_assoc, ← List.sum_map_mul_left]
  simp only [mul_left_comm]

theorem avg_pos (h : Good d) (hφ : ∀ q ∈ d, 0 < φ q.1) : 0 < avg d φ := by
  have hne : d ≠ [] := by rintro rfl; simpa [Good] using h.2
  obtain ⟨a, l, rfl⟩ := List.exists_cons_of_ne_nil hne
  obtain ⟨m, hm, h1⟩ : ∃ m : ℝ, 0 < m ∧ ∀ q ∈ a :: l, m ≤ φ q.1 := by
    clear h hne
    induction l generalizing a with
    | nil => exact ⟨φ a.1, hφ a (by simp), by simp⟩
    | cons b l ih =>
      obtain ⟨m, hm, h1⟩ := ih b fun q hq => hφ q (List.mem_cons_of_mem _ hq)
      refine ⟨min m (φ a.1), lt_min hm (hφ a (by simp)), ?_⟩
      intro q hq
      rcases List.mem_cons.1 hq with rfl | hq
      · exact min_le_right _ _
      · exact (min_le_left _ _).trans (h1 q hq)
  calc 0 < m := hm
    _ = avg (a :: l) (fun _ => m) := (avg_const h m).symm
    _ ≤ _ := avg_mono h h1

/-- Jensen for powers -/
theorem avg_rpow_le (h : Good d) (hφ : ∀ q ∈ d, 0 < φ q.1) {r : ℝ} (hr : 1 ≤ r) :
    avg d φ ^ r ≤ avg d (fun t => φ t ^ r) := by
  set m := avg d φ with hm
  have hm0 : 0 < m := avg_pos h hφ
  have key : ∀ t, 0 < t → m ^ r + m ^ r * r / m * (t - m) ≤ t ^ r := by
    intro t ht
    have h1 := one_add_mul_self_le_rpow_one_add (s := t / m - 1)
      (by have := div_pos ht hm0; linarith) hr
    rw [add_sub_cancel, Real.div_rpow ht.le hm0.le, le_div_iff₀ (Real.rpow_pos_of_pos hm0 r)] at h1
    calc _ = (1 + r * (t / m - 1)) * m ^ r := by field_simp
      _ ≤ _ := h1
  have h2 : avg d (fun t => (m ^ r - m ^ r * r / m * m) + m ^ r * r / m * φ t) = m ^ r := by
    rw [avg_add, avg_const h, avg_mul, ← hm]; ring
  rw [← h2]
  refine avg_mono h fun q hq => ?_
  have := key _ (hφ q hq)
  linarith

/-- Jensen for exp -/
theorem exp_avg_le (h : Good d) : Real.exp (avg d φ) ≤ avg d (fun t => Real.exp (φ t)) := by
  set m := avg d φ with hm
  have h2 : avg d (fun t => (Real.exp m - Real.exp m * m) + Real.exp m * φ t) = Real.exp m := by
    rw [avg_add, avg_const h, avg_mul, ← hm]; ring
  rw [← h2]
  refine avg_mono h fun q hq => ?_
  have h1 := Real.add_one_le_exp (φ q.1 - m)
  have h3 : Real.exp (φ q.1) = Real.exp m * Real.exp (φ q.1 - m) := by
    rw [← Real.exp_add]; ring_nf
  rw [h3]
  have := mul_le_mul_of_nonneg_left h1 (Real.exp_pos m).le
  linarith

/-- the power mean -/
noncomputable def pm (d : List (ℝ × ℝ)) (p : ℝ) : ℝ :=
  if p = 0 then Real.exp (avg d Real.log) else avg d (fun t => t ^ p) ^ (1 / p)

def Pos (d : List (ℝ × ℝ)) : Prop := ∀ q ∈ d, 0 < q.1

theorem pos_rpow (h : Pos d) (p : ℝ) : ∀ q ∈ d, 0 < q.1 ^ p :=
  fun q hq => Real.rpow_pos_of_pos (h q hq) p

theorem pm_pos (h : Good d) (h0 : Pos d) (p : ℝ) : 0 < pm d p := by
  unfold pm
  split_ifs
  · exact Real.exp_pos _
  · exact Real.rpow_pos_of_pos (avg_pos h (pos_rpow h0 p)) _

theorem pm_rpow (h : Good d) (h0 : Pos d) {p : ℝ} (hp : p ≠ 0) :
    pm d p ^ p = avg d (fun t => t ^ p) := by
  rw [pm, if_neg hp, rpow_inv_rpow (avg_pos h (pos_rpow h0 p)).le hp]

/-- Comparison of positive numbers through a power. -/
theorem le_of_rpow_pos {a b p : ℝ} (hb : 0 < b) (ha : 0 < a) (hp : 0 < p) (h : a ^ p ≤ b ^ p) : a ≤ b :=
  (Real.rpow_le_rpow_iff ha.le hb.le hp).1 h
theorem le_of_rpow_neg {a b p : ℝ} (hb : 0 < b) (ha : 0 < a) (hp : p < 0) (h : b ^ p ≤ a ^ p) : a ≤ b :=
  (Real.rpow_le_rpow_iff_of_neg hb ha hp).1 h

theorem gm_rpow_le (h : Good d) (h0 : Pos d) (p : ℝ) :
    pm d 0 ^ p ≤ avg d (fun t => t ^ p) := by
  rw [pm, if_pos rfl, ← Real.exp_mul, mul_comm, ← avg_mul]
  refine (exp_avg_le h).trans_eq ?_
  refine avg_congr fun q hq => ?_
  rw [Real.rpow_def_of_pos (h0 q hq), mul_comm]

theorem pm_mono (h : Good d) (h0 : Pos d) : Monotone (pm d) := by
  have P := pm_pos h h0
  have gle : ∀ q, 0 < q → pm d 0 ≤ pm d q := by
    intro q hq
    refine le_of_rpow_pos (P q) (P 0) hq ?_
    rw [pm_rpow h h0 hq.ne']; exact gm_rpow_le h h0 q
  have leg : ∀ p, p < 0 → pm d p ≤ pm d 0 := by
    intro p hp
    refine le_of_rpow_neg (P 0) (P p) hp ?_
    rw [pm_rpow h h0 hp.ne]; exact gm_rpow_le h h0 p
  intro p q hpq
  rcases lt_trichotomy p 0 with hp | hp | hp
  · rcases lt_trichotomy q 0 with hq | hq | hq
    · refine le_of_rpow_neg (P q) (P p) hp ?_
      rw [pm_rpow h h0 hp.ne]
      have h1 : pm d q ^ p = avg d (fun t => t ^ q) ^ (p / q) := by
        rw [← pm_rpow h h0 hq.ne, ← Real.rpow_mul (P q).le, mul_div_cancel₀ _ hq.ne]
      rw [h1]
      refine (avg_rpow_le h (pos_rpow h0 q) ((one_le_div_of_neg hq).2 hpq)).trans_eq ?_
      refine avg_congr fun u hu => ?_
      rw [← Real.rpow_mul (h0 u hu).le, mul_div_cancel₀ _ hq.ne]
    · rw [hq]; exact leg p hp
    · exact (leg p hp).trans (gle q hq)
  · rcases hpq.eq_or_lt with e | e
    · rw [e]
    · rw [hp]; exact gle q (hp ▸ e)
  · have hq : 0 < q := hp.trans_le hpq
    refine le_of_rpow_pos (P q) (P p) hq ?_
    rw [pm_rpow h h0 hq.ne']
    have h1 : pm d p ^ q = avg d (fun t => t ^ p) ^ (q / p) := by
      rw [← pm_rpow h h0 hp.ne', ← Real.rpow_mul (P p).le, mul_div_cancel₀ _ hp.ne']
    rw [h1]
    refine (avg_rpow_le h (pos_rpow h0 p) ((one_le_div hp).2 hpq)).trans_eq ?_
    refine avg_congr fun u hu => ?_
    rw [← Real.rpow_mul (h0 u hu).le, mul_div_cancel₀ _ hp.ne']

theorem pm_le {b : ℝ} (h : Good d) (h0 : Pos d) (hb : ∀ q ∈ d, q.1 ≤ b) (p : ℝ) : pm d p ≤ b := by
  have hne : d ≠ [] := by rintro rfl; simpa [Good] using h.2
  obtain ⟨u, hu⟩ := List.exists_mem_of_ne_nil d hne
  have hb0 : 0 < b := (h0 u hu).trans_le (hb u hu)
  have P := pm_pos h h0
  -- reduce to a positive exponent
  have key : ∀ p, 0 < p → pm d p ≤ b := by
    intro p hp
    refine le_of_rpow_pos hb0 (P p) hp ?_
    rw [pm_rpow h h0 hp.ne', ← avg_const h (b ^ p)]
    exact avg_mono h fun q hq => Real.rpow_le_rpow (h0 q hq).le (hb q hq) hp.le
  by_cases hp : 0 < p
  · exact key p hp
  · exact (pm_mono h h0 (by linarith : p ≤ 1)).trans (key 1 one_pos)

theorem le_pm {a : ℝ} (h : Good d) (h0 : Pos d) (ha0 : 0 < a) (ha : ∀ q ∈ d, a ≤ q.1) (p : ℝ) :
    a ≤ pm d p := by
  have P := pm_pos h h0
  have key : ∀ p, p < 0 → a ≤ pm d p := by
    intro p hp
    refine le_of_rpow_neg (P p) ha0 hp ?_
    rw [pm_rpow h h0 hp.ne, ← avg_const h (a ^ p)]
    exact avg_mono h fun q hq => Real.rpow_le_rpow_of_nonpos ha0 (ha q hq) hp.le
  by_cases hp : p < 0
  · exact key p hp
  · exact (key (-1) (by norm_num)).trans (pm_mono h h0 (by linarith : -1 ≤ p))

/-! ### Evaluation of the model -/

variable {x : List ℝ} {W : Option (List ℝ)}

theorem wt_length (hW : GoodWeights x W) :
    (W.getD (List.replicate x.length 1)).length = x.length := by
  cases W with
  | none => simp
  | some w => exact (hW w rfl).1

theorem dat_snd (hW : GoodWeights x W) :
    (dat x W).map Prod.snd = W.getD (List.replicate x.length 1) := by
  rw [dat, List.map_snd_zip]; rw [wt_length hW]
theorem dat_fst (hW : GoodWeights x W) : (dat x W).map Prod.fst = x := by
  rw [dat, List.map_fst_zip]; rw [wt_length hW]
theorem mem_dat {q : ℝ × ℝ} (hq : q ∈ dat x W) : q.1 ∈ x := (List.of_mem_zip hq).1

theorem good_dat (hx : x ≠ []) (hW : GoodWeights x W) : Good (dat x W) := by
  constructor
  · intro q hq
    have h := (List.of_mem_zip hq).2
    cases W with
    | none => simp at h; rw [h.2]; exact zero_le_one
    | some w => exact (hW w rfl).2.1 _ h
  · rw [dat_snd hW]
    cases W with
    | none => simp [List.length_pos_iff.2 hx]
    | some w => exact (hW w rfl).2.2

theorem pos_dat (hx : ∀ t ∈ x, 0 < t) : Pos (dat x W) := fun _ hq => hx _ (mem_dat hq)

theorem wsum_eq (f : ℝ → ℝ) (hW : GoodWeights x W) :
    wsum x W f = ((dat x W).map fun q => q.2 * f q.1).sum := by
  cases W with
  | none =>
    simp only [wsum, dat, Option.getD_none]
    congr 1
    induction x with
    | nil => simp
    | cons a l ih => simp [List.replicate_succ, ih (by intro w h; cases h)]
  | some w =>
    simp only [wsum, dat, Option.getD_some]
    rw [List.zip, List.map_zipWith]

theorem wsum_one (hW : GoodWeights x W) : wsum x W (fun _ => 1) = ((dat x W).map Prod.snd).sum := by
  rw [wsum_eq _ hW]; simp

theorem avg_eq_wsum (hW : GoodWeights x W) (f : ℝ → ℝ) :
    avg (dat x W) f = wsum x W f / wsum x W (fun _ => 1) := by
  rw [wsum_one hW, wsum_eq _ hW, avg]

theorem zipWith_nums (φ : ℝ → ℝ) (x w : List ℝ) :
    List.zipWith (fun t w => t * w) (x.map fun t => fin (φ t)) (nums w) =
      nums (List.zipWith (fun t v => v * φ t) x w) := by
  induction x generalizing w with
  | nil => simp [nums]
  | cons a l ih =>
    cases w with
    | nil => simp [nums]
    | cons b w =>
      have := ih w
      simp only [nums] at this ⊢
      simp [this, mul_comm]

theorem fsum_nums (l : List ℝ) : mp.fsum (nums l) = fin l.sum := mp.fsum_fin l

theorem mean_map_eval (hx : x ≠ []) (hW : GoodWeights x W) (φ : ℝ → ℝ) :
    mean (x.map fun t => fin (φ t)) (optNums W) = .ok (fin (avg (dat x W) φ)) := by
  rw [avg_eq_wsum hW]
  cases W with
  | none =>
    have hl : (x.length : ℝ) ≠ 0 := by simpa using hx
    simp [mean, optNums, mp.fsum_map_fin, len, fin_div _ hl, wsum]
  | some w =>
    obtain ⟨h1, h2, h3⟩ := hW w rfl
    have hs : mp.fsum (nums w) = fin w.sum := mp.fsum_fin w
    have hl : (nums w).length = x.length := by simp [nums, h1]
    have e : wsum x (some w) (fun _ => 1) = w.sum := by
      rw [wsum_one hW, dat_snd hW]; rfl
    simp only [mean, optNums, Option.map_some, hl, List.length_map, ne_eq, not_true_eq_false,
      if_false, hs, pure_eq_ok, ok_bind, zipWith_nums]
    rw [e, fsum_nums, fin_div _ h3.ne']
    simp [h3.ne', wsum]

theorem mean_eval (hx : x ≠ []) (hW : GoodWeights x W) :
    mean (nums x) (optNums W) = .ok (fin (avg (dat x W) id)) := mean_map_eval hx hW id

theorem mapM_nums {f : Num → M Num} {g : ℝ → ℝ} (h : ∀ t ∈ x, f (fin t) = .ok (fin (g t))) :
    (nums x).mapM f = .ok (x.map fun t => fin (g t)) := by
  induction x with
  | nil => simp [nums]
  | cons a l ih =>
    have := ih fun t ht => h t (List.mem_cons_of_mem _ ht)
    simp only [nums, List.map_cons, List.mapM_cons] at this ⊢
    rw [h a (by simp), ok_bind, this]; simp

theorem gmean_eval (hx : x ≠ []) (h0 : ∀ t ∈ x, 0 < t) (hW : GoodWeights x W) :
    gmean (nums x) (optNums W) = .ok (fin (Real.exp (avg (dat x W) Real.log))) := by
  have h1 : ¬ ∃ t ∈ nums x, t < 0 := by
    simp only [nums, List.mem_map, zero_def]
    rintro ⟨_, ⟨t, ht, rfl⟩, h⟩
    exact (h0 t ht).not_gt (by simpa using h)
  cases W with
  | none =>
    have h2 : ¬ ∃ t ∈ nums x, t =. 0 := by
      simp only [nums, List.mem_map, zero_def]
      rintro ⟨_, ⟨t, ht, rfl⟩, h⟩
      exact (h0 t ht).ne' (by simpa using h)
    have h3 := mean_map_eval hx hW Real.log
    simp only [gmean, h1, if_false, h2, optNums, Option.map_none, pure_eq_ok, ok_bind]
    rw [mapM_nums (g := Real.log) fun t ht => mp.log_pos (h0 t ht), ok_bind]
    simp only [optNums, Option.map_none] at h3
    rw [h3]; simp
  | some w =>
    obtain ⟨g1, g2, g3⟩ := hW w rfl
    have hs : mp.fsum (nums w) = fin w.sum := mp.fsum_fin w
    have e : wsum x (some w) (fun _ => 1) = w.sum := by
      rw [wsum_one hW, dat_snd hW]; rfl
    have h4 : (List.zip (nums x) (nums w)).mapM (fun q => xlogy q.2 q.1) =
        .ok (nums (List.zipWith (fun t v => v * Real.log t) x w)) := by
      clear h1 hW g1 g2 g3 hs e hx
      induction x generalizing w with
      | nil => simp [nums]
      | cons a l ih =>
        cases w with
        | nil => simp [nums]
        | cons b w =>
          have := ih (fun t ht => h0 t (List.mem_cons_of_mem _ ht)) w
          simp only [nums, List.map_cons, List.zip_cons_cons, List.mapM_cons,
            xlogy_eval (h0 a (by simp)), ok_bind] at this ⊢
          rw [this]; simp
    rw [avg_eq_wsum hW, e]
    simp only [gmean, h1, if_false, optNums, Option.map_some, pure_eq_ok, ok_bind, hs, h4]
    rw [fsum_nums, fin_div _ g3.ne']
    simp [g3.ne', wsum]

theorem hmean_eval (hx : x ≠ []) (h0 : ∀ t ∈ x, 0 < t) (hW : GoodWeights x W) :
    hmean (nums x) (optNums W) = .ok (fin (1 / avg (dat x W) (fun t => 1 / t))) := by
  have h1 : (nums x).countP (fun t => ¬ t > 0 ∧ ¬ t < 0) = 0 := by
    rw [List.countP_eq_zero]
    simp only [nums, List.mem_map]
    rintro _ ⟨t, ht, rfl⟩
    simp [h0 t ht]
  have h2 := avg_pos (φ := fun t => 1 / t) (good_dat hx hW)
    fun q hq => one_div_pos.2 (h0 _ (mem_dat hq))
  simp only [hmean, h1]
  rw [mapM_nums (g := fun t => 1 / t) fun t ht => by simp [fin_div _ (h0 t ht).ne'], ]
  simp only [ok_bind, mean_map_eval hx hW, gt_iff_lt, lt_irrefl, if_false, pure_eq_ok]
  have e : avg (dat x W) (HDiv.hDiv 1) = avg (dat x W) (fun t => 1 / t) := rfl
  simp only [zero_def, one_def, fin_eq, e, h2.ne', if_false, fin_div _ h2.ne']

theorem pm_one (h : Good d) (h0 : Pos d) : pm d 1 = avg d id := by
  simp [pm]; rfl
theorem pm_neg_one (h : Good d) (h0 : Pos d) : pm d (-1) = 1 / avg d (fun t => 1 / t) := by
  simp only [pm, neg_eq_zero, one_ne_zero, if_false]
  rw [show (1:ℝ) / (-1) = -1 by norm_num, Real.rpow_neg_one, one_div]
  congr 1
  exact avg_congr fun q hq => by rw [Real.rpow_neg_one, one_div]

theorem pmean_eval (hx : x ≠ []) (h0 : ∀ t ∈ x, 0 < t) (hW : GoodWeights x W) (p : ℝ) :
    pmean (nums x) (fin p) (optNums W) = .ok (fin (pm (dat x W) p)) := by
  have G := good_dat hx hW
  have P : Pos (dat x W) := pos_dat h0
  by_cases e0 : p = 0
  · simp [pmean, e0, gmean_eval hx h0 hW, pm]
  by_cases e1 : p = 1
  · simp [pmean, e1, mean_eval hx hW, pm_one G P]
  by_cases e2 : p = -1
  · subst e2
    simp only [pm_neg_one G P, ← hmean_eval hx h0 hW]
    simp only [pmean, zero_def, one_def, fin_eq, e0, if_false, e1, neg_fin, if_true]
  have h1 := avg_pos (φ := fun t => t ^ p) G (pos_rpow P p)
  simp only [pmean, zero_def, one_def, fin_eq, e0, if_false, e1, neg_fin, e2]
  rw [mapM_nums (g := fun t => t ^ p) fun t ht => mp.power_pos (h0 t ht) p, ok_bind,
    mean_map_eval hx hW]
  simp [fin_div _ e0, mp.power_pos h1, pm, e0]

theorem pmean_pinf (hx : x ≠ []) :
    ∃ m ∈ x, (∀ t ∈ x, t ≤ m) ∧ ∀ W, pmean (nums x) pinf W = .ok (fin m) := by
  obtain ⟨m, h1, h2, h3⟩ := py.max_fin hx
  refine ⟨m, h1, h2, fun W => ?_⟩
  simp [pmean, nums, h3]

theorem pmean_ninf (hx : x ≠ []) :
    ∃ m ∈ x, (∀ t ∈ x, m ≤ t) ∧ ∀ W, pmean (nums x) ninf W = .ok (fin m) := by
  obtain ⟨m, h1, h2, h3⟩ := py.min_fin hx
  refine ⟨m, h1, h2, fun W => ?_⟩
  simp [pmean, nums, h3]

theorem lehmer_eval (hx : x ≠ []) (h0 : ∀ t ∈ x, 0 < t) (hW : GoodWeights x W) {p : ℝ}
    (hp : p ≠ 1 / 2) : lehmerMean (nums x) (fin p) (optNums W) =
      .ok (fin (avg (dat x W) (fun t => t ^ p) / avg (dat x W) (fun t => t ^ (p - 1)))) := by
  have G := good_dat hx hW
  have P : Pos (dat x W) := pos_dat h0
  have h1 : ¬ ∃ t ∈ nums x, t ≤ fin 0 := by
    simp only [nums, List.mem_map]
    rintro ⟨_, ⟨t, ht, rfl⟩, h⟩
    exact (h0 t ht).not_ge (by simpa using h)
  by_cases e0 : p = 0
  · subst e0
    have e : avg (dat x W) (fun t => t ^ (0:ℝ)) = 1 := by simp only [Real.rpow_zero, avg_const G]
    have e' : avg (dat x W) (fun t => t ^ (0 - 1 : ℝ)) = avg (dat x W) (fun t => 1 / t) := by
      refine avg_congr fun q hq => ?_
      rw [zero_sub, Real.rpow_neg_one, one_div]
    rw [e, e', ← hmean_eval hx h0 hW]
    simp only [lehmerMean, h1, if_false, zero_def, fin_eq, if_true, pure_eq_ok, ok_bind]
  by_cases e1 : p = 1
  · subst e1
    have e : avg (dat x W) (fun t => t ^ (1 - 1 : ℝ)) = 1 := by
      simp only [sub_self, Real.rpow_zero, avg_const G]
    have e' : avg (dat x W) (fun t => t ^ (1:ℝ)) = avg (dat x W) id := by
      simp only [Real.rpow_one]; rfl
    rw [e, e', div_one, ← mean_eval hx hW]
    simp only [lehmerMean, h1, if_false, zero_def, fin_eq, one_def, hp, one_ne_zero, if_true,
      pure_eq_ok, ok_bind]
  have h2 := avg_pos (φ := fun t => t ^ (p - 1)) G (pos_rpow P (p - 1))
  simp only [lehmerMean, h1, if_false, zero_def, fin_eq, one_def, hp, e0, e1, reduceCtorEq, or_self,
    pure_eq_ok, ok_bind, fin_sub]
  rw [mapM_nums (g := fun t => t ^ p) fun t ht => mp.power_pos (h0 t ht) p, ok_bind,
    mapM_nums (g := fun t => t ^ (p - 1)) fun t ht => mp.power_pos (h0 t ht) (p - 1),
    mean_map_eval hx hW, ok_bind, ok_bind, mean_map_eval hx hW, ok_bind, fin_div _ h2.ne']

/-! ### Replication and rescaling of weights -/

theorem replicated_cons {α : Type} (a : α) (x : List α) (n : ℕ) (c : List ℕ) :
    replicated (a :: x) (n :: c) = List.replicate n a ++ replicated x c := by
  simp [replicated]

theorem mem_replicated {α : Type} {a : α} {x : List α} {c : List ℕ} (h : a ∈ replicated x c) :
    a ∈ x := by
  simp only [replicated, List.mem_flatMap, List.mem_replicate] at h
  obtain ⟨q, hq, _, rfl⟩ := h
  exact (List.of_mem_zip hq).1

theorem wsum_replicated (f : ℝ → ℝ) (x : List ℝ) (c : List ℕ) (h : c.length = x.length) :
    wsum (replicated x c) none f = wsum x (some (c.map fun n : ℕ => (n : ℝ))) f := by
  induction x generalizing c with
  | nil => simp [wsum, replicated]
  | cons a l ih =>
    cases c with
    | nil => simp at h
    | cons n c =>
      have := ih c (by simpa using h)
      simp only [wsum] at this ⊢
      simp [replicated_cons, this]

theorem goodWeights_none (x : List ℝ) : GoodWeights x none := by intro w h; cases h

theorem replicated_ne_nil {α : Type} {x : List α} {c : List ℕ} (h : c.length = x.length)
    (hc : 0 < c.sum) : replicated x c ≠ [] := by
  induction x generalizing c with
  | nil => simp at h; simp [h] at hc
  | cons a l ih =>
    cases c with
    | nil => simp at h
    | cons n c =>
      rw [replicated_cons]
      by_cases hn : n = 0
      · simp [hn] at hc ⊢
        exact ih (by simpa using h) hc
      · simp [hn]

theorem goodWeights_counts {x : List ℝ} {c : List ℕ} (h : c.length = x.length) (hc : 0 < c.sum) :
    GoodWeights x (some (c.map fun n : ℕ => (n : ℝ))) := by
  intro w hw
  obtain rfl : (c.map fun n : ℕ => (n : ℝ)) = w := by simpa using hw
  refine ⟨by simp [h], ?_, ?_⟩
  · intro v hv
    obtain ⟨n, _, rfl⟩ := List.mem_map.1 hv
    exact Nat.cast_nonneg n
  · have : (c.map fun n : ℕ => (n : ℝ)).sum = ((c.sum : ℕ) : ℝ) := by
      rw [Nat.cast_list_sum]
    rw [this]; exact_mod_cast hc

theorem avg_replicated {x : List ℝ} {c : List ℕ} (h : c.length = x.length) (hc : 0 < c.sum)
    (f : ℝ → ℝ) : avg (dat (replicated x c) none) f =
      avg (dat x (some (c.map fun n : ℕ => (n : ℝ)))) f := by
  rw [avg_eq_wsum (goodWeights_none _), avg_eq_wsum (goodWeights_counts h hc),
    wsum_replicated _ _ _ h, wsum_replicated _ _ _ h]

theorem goodWeights_smul {x w : List ℝ} {k : ℝ} (hk : 0 < k) (h : GoodWeights x (some w)) :
    GoodWeights x (some (w.map (k * ·))) := by
  obtain ⟨h1, h2, h3⟩ := h w rfl
  intro w' hw
  obtain rfl : w.map (k * ·) = w' := by simpa using hw
  refine ⟨by simp [h1], ?_, ?_⟩
  · intro v hv
    obtain ⟨n, hn, rfl⟩ := List.mem_map.1 hv
    exact mul_nonneg hk.le (h2 n hn)
  · rw [List.sum_map_mul_left]; simpa using mul_pos hk h3

theorem wsum_smul (x w : List ℝ) (k : ℝ) (f : ℝ → ℝ) :
    wsum x (some (w.map (k * ·))) f = k * wsum x (some w) f := by
  simp only [wsum]
  induction x generalizing w with
  | nil => simp
  | cons a l ih =>
    cases w with
    | nil => simp
    | cons b w => simp [ih, mul_add, mul_assoc]

theorem avg_smul {x w : List ℝ} {k : ℝ} (hk : 0 < k) (h : GoodWeights x (some w)) (f : ℝ → ℝ) :
    avg (dat x (some (w.map (k * ·)))) f = avg (dat x (some w)) f := by
  rw [avg_eq_wsum (goodWeights_smul hk h), avg_eq_wsum h, wsum_smul, wsum_smul,
    mul_div_mul_left _ _ hk.ne']

end Mpsci.stats
