import Verif.Model.Stats.Pearsonr
import Verif.Spec.Stats

namespace Mpsci.stats

open Classical Num Spec

theorem allSame_nums (x : List ℝ) : allSame (nums x) ↔ ¬ Varies x := by
  cases x with
  | nil => simp [allSame, Varies, nums]
  | cons a l =>
    simp only [allSame, nums, List.map_cons, List.mem_map, Varies]
    constructor
    · rintro h ⟨b, hb, c, hc, hbc⟩
      have key : ∀ t ∈ a :: l, t = a := by
        intro t ht
        rcases List.mem_cons.1 ht with rfl | ht
        · rfl
        · have := h (fin t) ⟨t, ht, rfl⟩
          simpa using this.symm
      exact hbc ((key b hb).trans (key c hc).symm)
    · rintro h _ ⟨t, ht, rfl⟩
      by_contra hc
      exact h ⟨a, by simp, t, List.mem_cons_of_mem _ ht, by simpa using hc⟩

theorem sum_nonneg_map {α : Type} {l : List α} {f : α → ℝ} (h : ∀ q ∈ l, 0 ≤ f q) :
    0 ≤ (l.map f).sum :=
  List.sum_nonneg (by intro v hv; obtain ⟨q, hq, rfl⟩ := List.mem_map.1 hv; exact h q hq)

theorem sum_zero_map {α : Type} {l : List α} {f : α → ℝ} (h : ∀ q ∈ l, 0 ≤ f q) :
    (l.map f).sum = 0 ↔ ∀ t ∈ l, f t = 0 := by
  induction l with
  | nil => simp
  | cons a l ih =>
    have h1 := h a (by simp)
    have h2 : 0 ≤ (l.map f).sum := sum_nonneg_map fun t ht => h t (List.mem_cons_of_mem _ ht)
    have h3 := ih fun t ht => h t (List.mem_cons_of_mem _ ht)
    simp only [List.map_cons, List.sum_cons, List.forall_mem_cons, ← h3]
    constructor
    · intro h4; constructor <;> linarith
    · rintro ⟨h4, h5⟩; rw [h4, h5, add_zero]

theorem sumSq_pos {x : List ℝ} (h : Varies x) (c : ℝ) : 0 < sumSq c x := by
  have h0 : 0 ≤ sumSq c x := sum_nonneg_map fun t _ => sq_nonneg _
  refine lt_of_le_of_ne h0 fun he => ?_
  obtain ⟨a, ha, b, hb, hab⟩ := h
  have hz := (sum_zero_map (fun t _ => sq_nonneg (t - c))).1 he.symm
  have e1 : a - c = 0 := pow_eq_zero_iff two_ne_zero |>.1 (hz a ha)
  have e2 : b - c = 0 := pow_eq_zero_iff two_ne_zero |>.1 (hz b hb)
  exact hab (by linarith)

variable {d : List (ℝ × ℝ)}

/-- Lagrange's form of Cauchy-Schwarz for lists of pairs. -/
theorem lagrange (l : List (ℝ × ℝ)) (A C : ℝ) :
    (l.map fun q => (A * q.2 - C * q.1) ^ 2).sum = A ^ 2 * (l.map fun q => q.2 ^ 2).sum -
      2 * A * C * (l.map fun q => q.1 * q.2).sum + C ^ 2 * (l.map fun q => q.1 ^ 2).sum := by
  induction l with
  | nil => simp
  | cons a l ih => simp only [List.map_cons, List.sum_cons]; rw [ih]; ring

theorem cauchy_schwarz (l : List (ℝ × ℝ)) (hA : 0 < (l.map fun q => q.1 ^ 2).sum) :
    (l.map fun q => q.1 * q.2).sum ^ 2 ≤
      (l.map fun q => q.1 ^ 2).sum * (l.map fun q => q.2 ^ 2).sum ∧
    ((l.map fun q => q.1 * q.2).sum ^ 2 =
      (l.map fun q => q.1 ^ 2).sum * (l.map fun q => q.2 ^ 2).sum →
      ∀ q ∈ l, q.2 = (l.map fun q => q.1 * q.2).sum / (l.map fun q => q.1 ^ 2).sum * q.1) := by
  set A := (l.map fun q => q.1 ^ 2).sum with hAdef
  set B := (l.map fun q => q.2 ^ 2).sum with hB
  set C := (l.map fun q => q.1 * q.2).sum with hC
  have key := lagrange l A C
  rw [← hAdef, ← hB, ← hC] at key
  have e : A ^ 2 * B - 2 * A * C * C + C ^ 2 * A = A * (A * B - C ^ 2) := by ring
  rw [e] at key
  constructor
  · have h0 : 0 ≤ A * (A * B - C ^ 2) := by
      rw [← key]; exact sum_nonneg_map fun q _ => sq_nonneg _
    have := nonneg_of_mul_nonneg_right h0 hA
    linarith
  · intro h q hq
    rw [h, sub_self, mul_zero, sum_zero_map fun q _ => sq_nonneg _] at key
    have := pow_eq_zero_iff two_ne_zero |>.1 (key q hq)
    field_simp
    linarith

/-- deviations of a list of pairs -/
noncomputable def dev (d : List (ℝ × ℝ)) : List (ℝ × ℝ) :=
  d.map fun q => (q.1 - average (d.map Prod.fst), q.2 - average (d.map Prod.snd))

theorem dev_xy : ((dev d).map fun q => q.1 * q.2).sum = sxy d := by
  simp [dev, sxy, Function.comp_def]
theorem dev_xx : ((dev d).map fun q => q.1 ^ 2).sum =
    sumSq (average (d.map Prod.fst)) (d.map Prod.fst) := by
  simp [dev, sumSq, Function.comp_def]
theorem dev_yy : ((dev d).map fun q => q.2 ^ 2).sum =
    sumSq (average (d.map Prod.snd)) (d.map Prod.snd) := by
  simp [dev, sumSq, Function.comp_def]

theorem corr_sq_le (hx : Varies (d.map Prod.fst)) (hy : Varies (d.map Prod.snd)) :
    corr d ^ 2 ≤ 1 ∧ (corr d ^ 2 = 1 → ∃ a b, a ≠ 0 ∧ ∀ q ∈ d, q.2 = a * q.1 + b) := by
  set A := sumSq (average (d.map Prod.fst)) (d.map Prod.fst) with hA
  set B := sumSq (average (d.map Prod.snd)) (d.map Prod.snd) with hB
  have hA0 : 0 < A := sumSq_pos hx _
  have hB0 : 0 < B := sumSq_pos hy _
  have hAB := mul_pos hA0 hB0
  have cs := cauchy_schwarz (dev d) (by rw [dev_xx]; exact hA0)
  rw [dev_xx, dev_yy, dev_xy, ← hA, ← hB] at cs
  have e : corr d ^ 2 = sxy d ^ 2 / (A * B) := by
    rw [corr, div_pow, Real.sq_sqrt hAB.le]
  rw [e]
  constructor
  · rw [div_le_one hAB]; exact cs.1
  · intro h
    rw [div_eq_one_iff_eq hAB.ne'] at h
    have h2 := cs.2 h
    have hne : sxy d ≠ 0 := by
      intro h0; rw [h0] at h; norm_num at h; rcases h with h | h <;> linarith
    refine ⟨sxy d / A, average (d.map Prod.snd) - sxy d / A * average (d.map Prod.fst),
      div_ne_zero hne hA0.ne', ?_⟩
    intro q hq
    have := h2 _ (List.mem_map.2 ⟨q, hq, rfl⟩)
    simp only at this
    linarith

theorem average_affine' {g : List ℝ} (hg : g ≠ []) (a b : ℝ) :
    average (g.map fun t => a * t + b) = a * average g + b := by
  have hl : (g.length : ℝ) ≠ 0 := by simpa using hg
  have : (g.map fun t => a * t + b).sum = a * g.sum + g.length * b := by
    rw [List.sum_map_add, List.sum_map_mul_left]; simp
  rw [average, average, this, List.length_map]
  field_simp

theorem sumSq_affine {g : List ℝ} (hg : g ≠ []) (a b : ℝ) :
    sumSq (average (g.map fun t => a * t + b)) (g.map fun t => a * t + b) =
      a ^ 2 * sumSq (average g) g := by
  rw [average_affine' hg, sumSq, sumSq, List.map_map, ← List.sum_map_mul_left]
  congr 2
  funext t; simp only [Function.comp]; ring

/-- Correlation after an affine change of the second coordinate. -/
theorem corr_affine_snd (hd : d ≠ []) {a : ℝ} (ha : a ≠ 0) (b : ℝ) :
    corr (d.map fun q => (q.1, a * q.2 + b)) = a / |a| * corr d := by
  have e1 : (d.map fun q => (q.1, a * q.2 + b)).map Prod.fst = d.map Prod.fst := by
    simp [Function.comp_def]
  have e2 : (d.map fun q => (q.1, a * q.2 + b)).map Prod.snd =
      (d.map Prod.snd).map fun t => a * t + b := by simp [Function.comp_def]
  have hd' : d.map Prod.snd ≠ [] := by simpa using hd
  have e3 : sxy (d.map fun q => (q.1, a * q.2 + b)) = a * sxy d := by
    rw [sxy, sxy, e1, e2, average_affine' hd', List.map_map, ← List.sum_map_mul_left]
    congr 2
    funext q; simp only [Function.comp]; ring
  rw [corr, corr, e1, e2, e3, sumSq_affine hd', mul_left_comm, Real.sqrt_mul (sq_nonneg a),
    Real.sqrt_sq_eq_abs, mul_div_mul_comm]

theorem corr_swap : corr (d.map Prod.swap) = corr d := by
  have e1 : (d.map Prod.swap).map Prod.fst = d.map Prod.snd := by simp [Function.comp_def]
  have e2 : (d.map Prod.swap).map Prod.snd = d.map Prod.fst := by simp [Function.comp_def]
  have e3 : sxy (d.map Prod.swap) = sxy d := by
    rw [sxy, sxy, e1, e2, List.map_map]; congr 2; funext q; simp [mul_comm]
  rw [corr, corr, e1, e2, e3, mul_comm (sumSq _ _)]

theorem corr_affine_fst (hd : d ≠ []) {a : ℝ} (ha : a ≠ 0) (b : ℝ) :
    corr (d.map fun q => (a * q.1 + b, q.2)) = a / |a| * corr d := by
  have hd' : d.map Prod.swap ≠ [] := by simpa using hd
  have := corr_affine_snd hd' ha b
  rw [corr_swap] at this
  rw [← this, ← corr_swap]
  congr 1
  simp [Function.comp_def]

theorem corr_of_affine (hx : Varies (d.map Prod.fst)) {a b : ℝ} (ha : a ≠ 0)
    (h : ∀ q ∈ d, q.2 = a * q.1 + b) : corr d = a / |a| := by
  have hd : d ≠ [] := by rintro rfl; obtain ⟨_, h, _⟩ := hx; simp at h
  have e : d = (d.map fun q => (q.1, q.1)).map fun q => (q.1, a * q.2 + b) := by
    rw [List.map_map]
    conv_lhs => rw [← List.map_id d]
    refine List.map_congr_left fun q hq => ?_
    simp only [id, Function.comp, ← h q hq]
  have h1 : corr (d.map fun q => (q.1, q.1)) = 1 := by
    have e1 : (d.map fun q => (q.1, q.1)).map Prod.fst = d.map Prod.fst := by
      simp [Function.comp_def]
    have e2 : (d.map fun q => (q.1, q.1)).map Prod.snd = d.map Prod.fst := by
      simp [Function.comp_def]
    have hp := sumSq_pos hx (average (d.map Prod.fst))
    have e3 : sxy (d.map fun q => (q.1, q.1)) =
        sumSq (average (d.map Prod.fst)) (d.map Prod.fst) := by
      rw [sxy, e1, e2, sumSq, List.map_map, List.map_map]
      congr 2; funext q; simp [pow_two]
    rw [corr, e1, e2, e3, Real.sqrt_mul_self hp.le, div_self hp.ne']
  rw [e, corr_affine_snd (by simpa using hd) ha, h1, mul_one]

/-! ### Evaluation -/

/-- The p-value `pearsonr` returns: exactly 1 for two data pairs. -/
noncomputable def pOf (r : ℝ) (n : ℕ) (alt : String) : M Num :=
  if n = 2 then .ok 1 else pearsonP (fin r) n alt

theorem zipWith_dev (d : List (ℝ × ℝ)) (a b : ℝ) :
    List.zipWith (fun s t => s * t) ((nums (d.map Prod.fst)).map fun t => t - fin a)
      ((nums (d.map Prod.snd)).map fun t => t - fin b) =
      d.map fun q => fin ((q.1 - a) * (q.2 - b)) := by
  induction d with
  | nil => simp [nums]
  | cons q l ih =>
    simp only [nums, List.map_cons, List.zipWith_cons_cons] at ih ⊢
    rw [ih, fin_sub, fin_sub, fin_mul]

theorem fsum_sq (x : List ℝ) (c : ℝ) :
    mp.fsum (((nums x).map fun t => t - fin c).map fun t => t * t) = fin (sumSq c x) := by
  have : ((nums x).map fun t => t - fin c).map (fun t => t * t) =
      x.map fun t => fin ((t - c) ^ 2) := by
    simp [nums, Function.comp_def, pow_two]
  rw [this, mp.fsum_map_fin]; rfl

def altOk (alt : String) : Prop := alt = "two-sided" ∨ alt = "less" ∨ alt = "greater"

theorem pearsonr_eval (hx : Varies (d.map Prod.fst)) (hy : Varies (d.map Prod.snd)) {alt : String}
    (ha : altOk alt) : pearsonr (nums (d.map Prod.fst)) (nums (d.map Prod.snd)) alt =
      (do return (fin (corr d), ← pOf (corr d) d.length alt)) := by
  have h1 : ¬ (alt ≠ "two-sided" ∧ alt ≠ "less" ∧ alt ≠ "greater") := by
    rintro ⟨h, h', h''⟩; rcases ha with e | e | e <;> contradiction
  have h2 : ¬ ((nums (d.map Prod.fst)).length ≠ (nums (d.map Prod.snd)).length) := by simp [nums]
  have h3 : ¬ (allSame (nums (d.map Prod.fst)) ∨ allSame (nums (d.map Prod.snd))) := by
    rw [allSame_nums, allSame_nums]; push Not; exact ⟨hx, hy⟩
  have hd : d ≠ [] := by rintro rfl; obtain ⟨_, h, _⟩ := hx; simp at h
  simp only [pearsonr, h1, if_false, h2, h3, pure_eq_ok, ok_bind]
  have gen : ∀ {X Y : List Num}, X = nums (d.map Prod.fst) → Y = nums (d.map Prod.snd) →
      d.length ≠ 2 → (do
        let xmean ← mp.fsum X /. fin X.length
        let ymean ← mp.fsum Y /. fin Y.length
        let xm := X.map fun t => t - xmean
        let ym := Y.map fun t => t - ymean
        let num := mp.fsum (List.zipWith (fun s t => s * t) xm ym)
        let den ← mp.sqrt (mp.fsum (xm.map fun t => t * t) * mp.fsum (ym.map fun t => t * t))
        let r ← num /. den
        return (r, ← pearsonP r X.length alt) : M (Num × Num)) =
      (do return (fin (corr d), ← pOf (corr d) d.length alt)) := by
    rintro _ _ rfl rfl hn
    have l1 : ((nums (d.map Prod.fst)).length : ℝ) = d.length := by simp [nums]
    have l2 : ((nums (d.map Prod.snd)).length : ℝ) = d.length := by simp [nums]
    have hl : (d.length : ℝ) ≠ 0 := by simpa using hd
    have s1 : mp.fsum (nums (d.map Prod.fst)) /. fin ((nums (d.map Prod.fst)).length : ℝ) =
        .ok (fin (average (d.map Prod.fst))) := by
      rw [l1, nums, mp.fsum_fin, fin_div _ hl]; simp [average]
    have s2 : mp.fsum (nums (d.map Prod.snd)) /. fin ((nums (d.map Prod.snd)).length : ℝ) =
        .ok (fin (average (d.map Prod.snd))) := by
      rw [l2, nums, mp.fsum_fin, fin_div _ hl]; simp [average]
    have hA := mul_pos (sumSq_pos hx (average (d.map Prod.fst)))
      (sumSq_pos hy (average (d.map Prod.snd)))
    have hq := Real.sqrt_pos.2 hA
    simp only [s1, s2, ok_bind, fsum_sq, zipWith_dev, mp.fsum_map_fin, fin_mul,
      mp.sqrt_nonneg hA.le, fin_div _ hq.ne', pOf, hn, if_false]
    rw [show (nums (d.map Prod.fst)).length = d.length by simp [nums]]
    rfl
  split
  · rename_i x0 x1 y0 y1 e1 e2
    have hl : d.length = 2 := by
      have := congrArg List.length e1; simpa [nums] using this
    obtain ⟨⟨a, b⟩, ⟨a', b'⟩, rfl⟩ := List.length_eq_two.1 hl
    simp only [nums, List.map_cons, List.map_nil, List.cons.injEq, and_true] at e1 e2
    obtain ⟨rfl, rfl⟩ := e1
    obtain ⟨rfl, rfl⟩ := e2
    have hx' : a' - a ≠ 0 := by
      intro h
      obtain ⟨u, hu, v, hv, huv⟩ := hx
      simp at hu hv
      apply huv
      rcases hu with rfl | rfl <;> rcases hv with rfl | rfl <;> linarith
    have hy' : b' - b ≠ 0 := by
      intro h
      obtain ⟨u, hu, v, hv, huv⟩ := hy
      simp at hu hv
      apply huv
      rcases hu with rfl | rfl <;> rcases hv with rfl | rfl <;> linarith
    have e : corr [(a, b), (a', b')] = (a' - a) * (b' - b) / |(a' - a) * (b' - b)| := by
      have e1 : sxy [(a, b), (a', b')] = (a' - a) * (b' - b) / 2 := by
        simp [sxy, average]; ring
      have e2 : sumSq (average [a, a']) [a, a'] = (a' - a) ^ 2 / 2 := by
        simp [sumSq, average]; ring
      have e3 : sumSq (average [b, b']) [b, b'] = (b' - b) ^ 2 / 2 := by
        simp [sumSq, average]; ring
      simp only [corr, List.map_cons, List.map_nil, e1, e2, e3]
      rw [show (a' - a) ^ 2 / 2 * ((b' - b) ^ 2 / 2) = ((a' - a) * (b' - b) / 2) ^ 2 by ring,
        Real.sqrt_sq_eq_abs, abs_div, abs_two, div_div_div_cancel_right₀ two_ne_zero]
    have sg : ∀ u : ℝ, u ≠ 0 → mp.sign (fin u) = fin (u / |u|) := by
      intro u hu
      rcases lt_or_gt_of_ne hu with h | h
      · simp [mp.sign, h, not_lt.2 h.le, abs_of_neg h, div_neg, div_self hu]
      · simp [mp.sign, h, abs_of_pos h, div_self hu]
    simp only [pOf, hl, if_true, fin_sub, sg _ hx', sg _ hy', fin_mul, e, abs_mul, ok_bind,
      pure_eq_ok]
    rw [div_mul_div_comm]
  · rename_i hno
    refine gen rfl rfl ?_
    intro hl
    obtain ⟨⟨a, b⟩, ⟨a', b'⟩, rfl⟩ := List.length_eq_two.1 hl
    exact hno _ _ _ _ rfl rfl

end Mpsci.stats
