import Verif.Lemmas.Dist.TukeyLambda
import Verif.Spec.Anderson

/-! `tukeylambda`: the search in `cdf`. -/

namespace Mpsci.tukeylambda

open Classical Num common Filter Topology Set Spec tkD

variable {l m s p z a b eps : ℝ} {findroot : (Num → M Num) → Num → Num → M Num}

theorem invcdf_sign (hz : z ∈ S l) (hp : p ∈ Ioo (0:ℝ) 1) :
    (p < F l z → mp.sign (fin (Q l p - z)) = fin (-1)) ∧ (F l z < p → mp.sign (fin (Q l p - z)) = fin 1) := by
  have h := F_spec hz
  constructor <;> intro hlt
  · have := Q_strictMono (l := l) hp h.1 hlt
    exact sign_neg (by linarith [h.2])
  · have := Q_strictMono (l := l) h.1 hp hlt
    exact sign_pos (by linarith [h.2])

/-- The invariant of the loop. -/
def Inv (l z a b w : ℝ) (k : ℕ) (st : Num × Num × Prop) : Prop :=
  ∃ lo hi : ℝ, st.1 = fin lo ∧ st.2.1 = fin hi ∧ a ≤ lo ∧ lo ≤ F l z ∧ F l z ≤ hi ∧ hi ≤ b ∧ hi - lo ≤ (b - a) / 2 ^ k ∧
    (¬ st.2.2 → lo < hi) ∧ (st.2.2 → lo = hi) ∧ (F l z - a < w / 2 → ¬ st.2.2 ∧ lo = a) ∧ (b - F l z < w / 2 → ¬ st.2.2 ∧ hi = b)

theorem refine_loop (hz : z ∈ S l) (ha : 0 ≤ a) (hb : b ≤ 1) (har : a < F l z) (hrb : F l z < b) {mm dl : ℝ} (hm : 0 < mm) (hd : 0 < dl) :
    ∃ k N t, Inv l z a b (dl * mm) k t ∧ ¬ (¬ t.2.2 ∧ dl * mm < val t.2.1 - val t.1) ∧
      ∀ n ≥ N, loop (refineCond (fin mm) (fin dl)) (refineStep (fin z) (fin l) (fin (-1))) n (fin a, fin b, False) = .ok t := by
  obtain ⟨K, hK⟩ : ∃ K : ℕ, (b - a) / 2 ^ K < dl * mm := by
    obtain ⟨K, hK⟩ := exists_pow_lt_of_lt_one (show 0 < dl * mm / (b - a) from div_pos (mul_pos hd hm) (by linarith)) (show (1 / 2 : ℝ) < 1 by norm_num)
    refine ⟨K, ?_⟩
    rw [lt_div_iff₀ (by linarith), div_pow, one_pow] at hK
    rw [div_eq_mul_one_div, mul_comm]; exact hK
  refine loop_ends_idx (Inv l z a b (dl * mm)) (fun st => ¬ st.2.2 ∧ dl * mm < val st.2.1 - val st.1) K ?_ ?_ ?_ ?_
  · rintro k ⟨x, y, dn⟩ ⟨lo, hi, rfl, rfl, -⟩
    by_cases hdn : dn
    · simp only [refineCond, hdn, if_true, pure_eq_ok, not_true, false_and]
    · simp only [refineCond, hdn, if_false, fin_sub, fin_div _ hm.ne', ok_bind, gt_iff, fin_lt, pure_eq_ok, not_false_eq_true, true_and, val_fin,
        lt_div_iff₀ hm]
  · rintro k ⟨x, y, dn⟩ ⟨lo, hi, rfl, rfl, h1, h2, h3, h4, h5, h6, h7, h8, h9⟩ ⟨hdn, hw⟩
    simp only [val_fin] at hw
    have hlt := h6 hdn
    have hmid : (lo + hi) / 2 ∈ Ioo (0:ℝ) 1 := ⟨by linarith, by linarith⟩
    obtain ⟨s1, s2⟩ := invcdf_sign hz hmid
    have h5' : (hi - lo) / 2 ≤ (b - a) / 2 ^ (k + 1) := by rw [pow_succ, ← div_div]; linarith
    have e : refineStep (fin z) (fin l) (fin (-1)) (fin lo, fin hi, dn) =
        (if mp.sign (fin (Q l ((lo + hi) / 2) - z)) =. 0 then .ok (fin ((lo + hi) / 2), fin ((lo + hi) / 2), True)
         else if mp.sign (fin (Q l ((lo + hi) / 2) - z)) =. fin (-1) then .ok (fin ((lo + hi) / 2), fin hi, False)
         else .ok (fin lo, fin ((lo + hi) / 2), False)) := by
      simp only [refineStep, fin_add, ofNat_def, fin_div _ (two_ne_zero (α := ℝ)), ok_bind, invcdf_std l hmid, fin_sub, pure_eq_ok]
    rcases lt_trichotomy ((lo + hi) / 2) (F l z) with hc | hc | hc
    · refine ⟨(fin ((lo + hi) / 2), fin hi, False), ?_, (lo + hi) / 2, hi, rfl, rfl, by linarith, hc.le, h3, h4, by linarith, fun _ => by linarith,
        fun h => h.elim, fun h => ?_, fun h => ⟨not_false, (h9 h).2⟩⟩
      · rw [e, s1 hc, if_neg (by simp), if_pos (by simp)]
      · have := (h8 h).2; linarith
    · have hQ : Q l ((lo + hi) / 2) - z = 0 := by rw [hc, (F_spec hz).2, sub_self]
      refine ⟨(fin ((lo + hi) / 2), fin ((lo + hi) / 2), True), ?_, (lo + hi) / 2, (lo + hi) / 2, rfl, rfl, by linarith, hc.le, hc.ge, by linarith,
        by linarith, fun h => (h trivial).elim, fun _ => rfl, fun h => ?_, fun h => ?_⟩
      · rw [e, hQ, sign_zero, if_pos (by simp)]
      · have := (h8 h).2; linarith
      · have := (h9 h).2; linarith
    · refine ⟨(fin lo, fin ((lo + hi) / 2), False), ?_, lo, (lo + hi) / 2, rfl, rfl, h1, h2, hc.le, by linarith, by linarith, fun _ => by linarith,
        fun h => h.elim, fun h => ⟨not_false, (h8 h).2⟩, fun h => ?_⟩
      · rw [e, s2 hc, if_neg (by simp), if_neg (by simp; norm_num)]
      · have := (h9 h).2; linarith
  · rintro k ⟨x, y, dn⟩ hk ⟨lo, hi, rfl, rfl, -, -, -, -, h5, -⟩ ⟨-, hw⟩
    simp only [val_fin] at hw
    have : (b - a) / 2 ^ k ≤ (b - a) / 2 ^ K :=
      div_le_div_of_nonneg_left (by linarith) (by positivity) (pow_le_pow_right₀ (by norm_num) hk)
    linarith
  · exact ⟨a, b, rfl, rfl, le_rfl, har.le, hrb.le, le_rfl, by simp, fun _ => by linarith, fun h => h.elim, fun _ => ⟨not_false, rfl⟩,
      fun _ => ⟨not_false, rfl⟩⟩

/-- What the refinement of the bracket does. -/
theorem refine_spec (heps : 0 < eps) (hl0 : l ≠ 0) (hz : z ∈ S l) (ha : 0 ≤ a) (hb : b ≤ 1) (har : a < F l z) (hrb : F l z < b) :
    ∃ lo hi, refineBracket (fin eps) (fin a) (fin b) (fin z) (fin l) = .ok (fin lo, fin hi) ∧ a ≤ lo ∧ lo ≤ F l z ∧ F l z ≤ hi ∧ hi ≤ b ∧
      hi - lo ≤ √eps * ((a + b) / 2) ∧ (F l z - a < √eps * ((a + b) / 2) / 2 → lo = a ∧ lo < hi) ∧
      (b - F l z < √eps * ((a + b) / 2) / 2 → hi = b ∧ lo < hi) := by
  have hd : 0 < √eps := Real.sqrt_pos.2 heps
  have hm : 0 < (a + b) / 2 := by linarith
  obtain ⟨k, N, ⟨x, y, dn⟩, ⟨lo, hi, rfl, rfl, h1, h2, h3, h4, -, h6, h7, h8, h9⟩, hend, hloop⟩ := refine_loop hz ha hb har hrb hm hd
  simp only [val_fin] at hend
  have hsm : ∃ y, invcdf (fin a) (fin l) = .ok y ∧ mp.sign (y - fin z) = fin (-1) := by
    rcases ha.eq_or_lt with h | h
    · subst h
      rcases lt_trichotomy l 0 with hl | hl | hl
      · exact ⟨ninf, invcdf_zero_neg 0 hl one_pos, by simp [mp.sign]⟩
      · exact absurd hl hl0
      · refine ⟨_, invcdf_std_closed hl ⟨le_rfl, zero_le_one⟩, ?_⟩
        rw [Q_zero hl]
        rw [S, if_pos hl] at hz
        exact sign_neg (by linarith [hz.1])
    · have hm : a ∈ Ioo (0:ℝ) 1 := ⟨h, by linarith⟩
      exact ⟨_, invcdf_std l hm, (invcdf_sign hz hm).1 har⟩
  have hsx : ∃ y, invcdf (fin b) (fin l) = .ok y := by
    rcases hb.eq_or_lt with h | h
    · subst h
      rcases lt_trichotomy l 0 with hl | hl | hl
      · exact ⟨pinf, invcdf_one_neg 0 hl one_pos⟩
      · exact absurd hl hl0
      · exact ⟨_, invcdf_std_closed hl ⟨zero_le_one, le_rfl⟩⟩
    · exact ⟨_, invcdf_std l ⟨by linarith, h⟩⟩
  obtain ⟨y1, e1, e2⟩ := hsm
  obtain ⟨y2, e3⟩ := hsx
  refine ⟨lo, hi, ?_, h1, h2, h3, h4, ?_, fun h => ⟨(h8 h).2, h6 (h8 h).1⟩, fun h => ⟨(h9 h).2, h6 (h9 h).1⟩⟩
  · have hrun := run_of hloop
    simp only [refineBracket, fin_add, ofNat_def, fin_div _ (two_ne_zero (α := ℝ)), ok_bind, mp.sqrt_nonneg heps.le, e1, e2, e3, hrun, pure_eq_ok]
  · by_cases hdn : dn
    · rw [h7 hdn, sub_self]; positivity
    · exact not_lt.1 fun h => hend ⟨hdn, h⟩

/-! ### The solution -/

theorem solve_pos (hr : BisectFinder findroot) (heps : 0 < eps) (hl : 0 < l) (hz : z ∈ S l) :
    cdfSolve findroot (fin eps) (fin z) (fin l) = .ok (fin (F l z)) := by
  have hF := F_spec hz
  obtain ⟨lo, hi, e, h1, h2, h3, h4, -⟩ := refine_spec heps hl.ne' hz le_rfl le_rfl hF.1.1 hF.1.2
  have hsub : Icc lo hi ⊆ Icc 0 1 := Icc_subset_Icc h1 h4
  have hmono : MonotoneOn (Q l) (Icc 0 1) := by
    have : StrictMonoOn (Q l) (closure (Ioo 0 1)) := by
      rw [closure_Ioo zero_ne_one]
      refine strictMonoOn_of_deriv_pos (convex_Icc 0 1) (continuousOn_Q hl) fun p hp => ?_
      rw [interior_Icc] at hp
      rw [(hasDerivAt_Q hp).deriv]; exact q_pos hp
    rw [closure_Ioo zero_ne_one] at this
    exact this.monotoneOn
  have hFc : F l z ∈ Icc (0:ℝ) 1 := F_01 l z
  obtain ⟨r, hrm, e2, e3⟩ := hr (fun t => do return (← invcdf t (fin l)) - fin z) (fun t => Q l t - z) lo hi (h2.trans h3)
    (fun t ht => by simp only [invcdf_std_closed hl (hsub ht), ok_bind, fin_sub, pure_eq_ok])
    (((continuousOn_Q hl).mono hsub).sub continuousOn_const)
    (Or.inl ⟨by
      have := hmono (hsub ⟨le_rfl, h2.trans h3⟩) hFc h2
      rw [hF.2] at this; linarith, by
      have := hmono hFc (hsub ⟨h2.trans h3, le_rfl⟩) h3
      rw [hF.2] at this; linarith⟩)
  have hrQ : Q l r = z := by linarith
  have hr01 : r ∈ Ioo (0:ℝ) 1 := by
    rw [S, if_pos hl] at hz
    have h := hsub hrm
    refine ⟨h.1.lt_of_ne fun h0 => ?_, h.2.lt_of_ne fun h0 => ?_⟩
    · rw [← h0, Q_zero hl] at hrQ; linarith [hz.1]
    · rw [h0, Q_one hl] at hrQ; linarith [hz.2]
  rw [F_eq hr01 hrQ]
  simp only [cdfSolve, cdfSolverBracket, one_def, fin_div _ hl.ne', ok_bind, zero_def, fin_lt, hl.not_gt, if_false, pure_eq_ok, e]
  exact e2

theorem solve_of (hr : BisectFinder findroot) (hz : z ∈ S l) {lo hi : ℝ} (h0 : 0 < lo) (h1 : hi < 1) (h2 : lo ≤ F l z) (h3 : F l z ≤ hi) :
    findroot (fun t => do return (← invcdf t (fin l)) - fin z) (fin lo) (fin hi) = .ok (fin (F l z)) := by
  have hF := F_spec hz
  have hsub : Icc lo hi ⊆ Ioo 0 1 := fun x hx => ⟨h0.trans_le hx.1, hx.2.trans_lt h1⟩
  obtain ⟨r, hrm, e2, e3⟩ := hr (fun t => do return (← invcdf t (fin l)) - fin z) (fun t => Q l t - z) lo hi (h2.trans h3)
    (fun t ht => by simp only [invcdf_std l (hsub ht), ok_bind, fin_sub, pure_eq_ok])
    (fun t ht => ((hasDerivAt_Q (hsub ht)).continuousAt.sub continuousAt_const).continuousWithinAt)
    (Or.inl ⟨by
      have := (Q_strictMono (l := l)).monotoneOn (hsub ⟨le_rfl, h2.trans h3⟩) hF.1 h2
      rw [hF.2] at this; linarith, by
      have := (Q_strictMono (l := l)).monotoneOn hF.1 (hsub ⟨h2.trans h3, le_rfl⟩) h3
      rw [hF.2] at this; linarith⟩)
  rw [F_eq (hsub hrm) (by linarith : Q l r = z)]
  exact e2

theorem solve_neg (hr : BisectFinder findroot) (heps : 0 < eps) (hl : l < 0) (hz : z ≠ 0) (h0 : √eps < F l z) (h1 : F l z < 1 - √eps) :
    cdfSolve findroot (fin eps) (fin z) (fin l) = .ok (fin (F l z)) := by
  have hS : z ∈ S l := by simp [S, hl.not_gt]
  have hd : 0 < √eps := Real.sqrt_pos.2 heps
  rcases lt_or_gt_of_ne hz with hz | hz
  · obtain ⟨a, b, e, ha, har, hrb, hb⟩ := bracket_neg hl hz
    obtain ⟨lo, hi, e2, a1, a2, a3, a4, a5, -⟩ := refine_spec heps hl.ne hS ha (by linarith) har hrb
    have hm : √eps * ((a + b) / 2) ≤ √eps * 1 := mul_le_mul_of_nonneg_left (by linarith) hd.le
    simp only [cdfSolve, e, e2, ok_bind]
    exact solve_of hr hS (by linarith) (by linarith) a2 a3
  · obtain ⟨a, b, e, ha, har, hrb, hb⟩ := bracket_pos hl hz
    obtain ⟨lo, hi, e2, a1, a2, a3, a4, a5, -⟩ := refine_spec heps hl.ne hS (by linarith) hb har hrb
    have hm : √eps * ((a + b) / 2) ≤ √eps * 1 := mul_le_mul_of_nonneg_left (by linarith) hd.le
    simp only [cdfSolve, e, e2, ok_bind]
    exact solve_of hr hS (by linarith) (by linarith) a2 a3

theorem cdf_std_eval (hr : BisectFinder findroot) (heps : 0 < eps) (hl : 0 ≤ l) (m : ℝ) (hs : 0 < s) (x : ℝ) :
    cdf findroot (fin eps) (fin x) (fin l) (fin m) (fin s) = .ok (fin (F l ((x - m) / s))) := by
  simp only [cdf, validate_ok l m hs, ok_bind, fin_sub, fin_div _ hs.ne']
  generalize (x - m) / s = z
  by_cases hz : z = 0
  · simp only [hz, zero_def, fin_eq, if_true, pure_eq_ok, F_zero]
  rcases hl.eq_or_lt with h0 | hl
  · subst h0
    have h1 : Real.exp (-z) + 1 ≠ 0 := (add_pos (Real.exp_pos _) one_pos).ne'
    simp only [zero_def, fin_eq, hz, if_false, gt_iff, fin_lt, lt_irrefl, if_true, neg_fin, mp.exp_fin, one_def, fin_add, fin_div _ h1, F_logistic]
  · simp only [zero_def, fin_eq, hz, if_false, gt_iff, fin_lt, hl, if_true, one_def, fin_div _ hl.ne', ok_bind, neg_fin, fin_le, ge_iff, pure_eq_ok]
    rcases F_cases l z with h | ⟨-, h⟩ | ⟨-, h⟩
    · have h' := h
      rw [S, if_pos hl] at h'
      rw [if_neg (not_le.2 h'.1), if_neg (not_le.2 h'.2), solve_pos hr heps hl h]
    · rw [if_pos h, F_low hl h]
    · have : 0 < 1 / l := by positivity
      rw [if_neg (by linarith), if_pos h, F_high hl h]

theorem cdf_neg_eval (hr : BisectFinder findroot) (heps : 0 < eps) (hl : l < 0) (m : ℝ) (hs : 0 < s) {x : ℝ}
    (h0 : √eps < F l ((x - m) / s)) (h1 : F l ((x - m) / s) < 1 - √eps) :
    cdf findroot (fin eps) (fin x) (fin l) (fin m) (fin s) = .ok (fin (F l ((x - m) / s))) := by
  simp only [cdf, validate_ok l m hs, ok_bind, fin_sub, fin_div _ hs.ne']
  generalize (x - m) / s = z at *
  by_cases hz : z = 0
  · simp only [hz, zero_def, fin_eq, if_true, pure_eq_ok, F_zero]
  · simp only [zero_def, fin_eq, hz, if_false, gt_iff, fin_lt, hl.not_gt, hl.ne, solve_neg hr heps hl hz h0 h1]

theorem cdf_neg_solve (hl : l < 0) (m : ℝ) (hs : 0 < s) {x : ℝ} (h : (x - m) / s ≠ 0) :
    cdf findroot (fin eps) (fin x) (fin l) (fin m) (fin s) = cdfSolve findroot (fin eps) (fin ((x - m) / s)) (fin l) := by
  simp only [cdf, validate_ok l m hs, ok_bind, fin_sub, fin_div _ hs.ne', zero_def, fin_eq, h, if_false, gt_iff, fin_lt, hl.not_gt, hl.ne]

theorem sf_eq (x l m s : ℝ) : sf findroot (fin eps) (fin x) (fin l) (fin m) (fin s) =
    cdf findroot (fin eps) (fin (-x)) (fin l) (fin (-m)) (fin s) := rfl

theorem neg_z (x m s : ℝ) : (-x - -m) / s = -((x - m) / s) := by ring

theorem sf_eval (hr : BisectFinder findroot) (heps : 0 < eps) (hl : 0 ≤ l) (m : ℝ) (hs : 0 < s) (x : ℝ) :
    sf findroot (fin eps) (fin x) (fin l) (fin m) (fin s) = .ok (fin (1 - F l ((x - m) / s))) := by
  rw [sf_eq, cdf_std_eval hr heps hl _ hs, neg_z, F_neg]

theorem pdfIn_eval (hs : 0 < s) (hz : z ∈ S l) (hc : cdf findroot (fin eps) (fin z) (fin l) = .ok (fin (F l z))) :
    pdfIn findroot (fin eps) (fin z) (fin l) (fin s) = .ok (fin (f l z / s)) := by
  have hF := (F_spec hz).1
  have h1 : 0 < 1 - F l z := sub_pos.2 hF.2
  have hl1 : mp.log1p (fin (-F l z)) = .ok (fin (Real.log (1 - F l z))) := mp_log1p_neg hF.2
  have hq := (q_pos (l := l) hF).ne'
  have e : F l z ^ (l - 1) + Real.exp ((l - 1) * Real.log (1 - F l z)) = q l (F l z) := by
    rw [mul_comm, ← Real.rpow_def_of_pos h1]; rfl
  simp only [pdfIn, hc, ok_bind]
  simp only [ok_bind, one_def, fin_sub, mp.power_pos hF.1, neg_fin, hl1, fin_mul, mp.exp_fin, fin_add, e, fin_div _ hq, fin_div _ hs.ne', f,
    if_pos hz]

theorem pdf_eval (hr : BisectFinder findroot) (heps : 0 < eps) (hl : 0 ≤ l) (m : ℝ) (hs : 0 < s) (x : ℝ) :
    pdf findroot (fin eps) (fin x) (fin l) (fin m) (fin s) = .ok (fin (f l ((x - m) / s) / s)) := by
  have hc : ∀ z, cdf findroot (fin eps) (fin z) (fin l) = .ok (fin (F l z)) := fun z => by
    have := cdf_std_eval hr heps hl 0 one_pos z
    rwa [sub_zero, div_one] at this
  simp only [pdf, validate_ok l m hs, ok_bind, fin_sub, fin_div _ hs.ne']
  generalize (x - m) / s = z
  rcases hl.eq_or_lt with h0 | hl
  · subst h0
    simp only [zero_def, gt_iff, fin_lt, lt_irrefl, if_false]
    exact pdfIn_eval hs (by simp [S]) (hc z)
  · simp only [zero_def, gt_iff, fin_lt, hl, if_true, one_def, fin_div _ hl.ne', ok_bind, neg_fin, fin_le, ge_iff, pure_eq_ok]
    by_cases h : z ∈ S l
    · rw [if_neg, pdfIn_eval hs h (hc z)]
      rw [S, if_pos hl] at h
      rintro (h' | h')
      · exact absurd h.1 (not_lt.2 h')
      · exact absurd h.2 (not_lt.2 h')
    · rw [if_pos, f, if_neg h, zero_div]
      rcases F_cases l z with h' | ⟨-, h'⟩ | ⟨-, h'⟩
      · exact absurd h' h
      · exact Or.inl h'
      · exact Or.inr h'

theorem pdf_neg_eval (hr : BisectFinder findroot) (heps : 0 < eps) (hl : l < 0) (m : ℝ) (hs : 0 < s) {x : ℝ}
    (h0 : √eps < F l ((x - m) / s)) (h1 : F l ((x - m) / s) < 1 - √eps) :
    pdf findroot (fin eps) (fin x) (fin l) (fin m) (fin s) = .ok (fin (f l ((x - m) / s) / s)) := by
  simp only [pdf, validate_ok l m hs, ok_bind, fin_sub, fin_div _ hs.ne', zero_def, gt_iff, fin_lt, hl.not_gt, if_false]
  refine pdfIn_eval hs (by simp [S, hl.not_gt]) ?_
  have := cdf_neg_eval (x := (x - m) / s) hr heps hl 0 one_pos
  simp only [sub_zero, div_one] at this
  exact this h0 h1

theorem f_pos (hz : z ∈ S l) : 0 < f l z := by
  rw [f, if_pos hz]; exact one_div_pos.2 (q_pos (F_spec hz).1)

end Mpsci.tukeylambda
