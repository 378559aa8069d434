import Verif.Lemmas.Dist.TukeyLambdaCdf
import Verif.Lemmas.Dist.TukeyLambdaMoments
import Verif.Lemmas.Inverts
import Verif.Spec.Anderson

/-! Properties of `tukeylambda`.  `eps` is the machine epsilon at the working precision. -/

namespace Mpsci.tukeylambda

open Classical Num Spec common Filter Topology Set tkD MeasureTheory

variable {l m s eps : ℝ} {findroot : (Num → M Num) → Num → Num → M Num}

/-- There is a solver as assumed, and the quantile function of a non-trivial case is not affine. -/
example : (∃ findroot, BisectFinder findroot) ∧ (0:ℝ) < 1 / 10 ^ 16 ∧
    invcdf (fin (1 / 4)) (fin 2) (fin 1) (fin 3) = .ok (fin (1 + 3 * (((1 / 4) ^ (2:ℝ) - (1 - 1 / 4) ^ (2:ℝ)) / 2))) := by
  refine ⟨exists_bisectFinder, by norm_num, ?_⟩
  rw [invcdf_eval 2 1 three_pos ⟨by norm_num, by norm_num⟩, Q, if_neg two_ne_zero]

/-- C01: for `lam ≥ 0`, assuming that the solver finds the root -/
theorem complementary (hr : BisectFinder findroot) (heps : 0 < eps) (hl : 0 ≤ l) (hs : 0 < s) :
    Complementary (cdf findroot (fin eps) · (fin l) (fin m) (fin s)) (sf findroot (fin eps) · (fin l) (fin m) (fin s)) :=
  complementary_of (cdf_std_eval hr heps hl m hs) (sf_eval hr heps hl m hs)

/-- C02: for `lam ≥ 0`, assuming that the solver finds the root -/
theorem isCdf (hr : BisectFinder findroot) (heps : 0 < eps) (hl : 0 ≤ l) (hs : 0 < s) :
    IsCdf (cdf findroot (fin eps) · (fin l) (fin m) (fin s)) :=
  ((isDist l).affine m hs).isCdf (cdf_std_eval hr heps hl m hs)

/-- C03: for `lam ≥ 0`, assuming that the solver finds the root -/
theorem isDensity (hr : BisectFinder findroot) (heps : 0 < eps) (hl : 0 ≤ l) (hs : 0 < s) :
    IsDensity ∅ {x | (x - m) / s ∈ S l} (pdf findroot (fin eps) · (fin l) (fin m) (fin s)) (cdf findroot (fin eps) · (fin l) (fin m) (fin s)) :=
  ((isDist l).affine m hs).isDensity (fun x _ => pdf_eval hr heps hl m hs x) (cdf_std_eval hr heps hl m hs)
    fun x hx => by rw [f, if_neg (by simpa using hx), zero_div]

/-- C04, C42: for `lam ≥ 0`, assuming that the solver finds the root -/
theorem isLogOf (hr : BisectFinder findroot) (heps : 0 < eps) (hl : 0 ≤ l) (hs : 0 < s) :
    IsLogOf ∅ (pdf findroot (fin eps) · (fin l) (fin m) (fin s)) (logpdf findroot (fin eps) · (fin l) (fin m) (fin s)) := by
  refine isLogOf_of (P := {x | (x - m) / s ∈ S l}) (g := fun x => f l ((x - m) / s) / s) (fun x _ hx => div_pos (f_pos hx) hs)
    (fun x _ hx => by rw [f, if_neg (by simpa using hx), zero_div]) (fun x _ => pdf_eval hr heps hl m hs x) (fun x _ hx => ?_) (fun x _ hx => ?_)
  · simp only [logpdf, validate_ok l m hs, ok_bind, pdf_eval hr heps hl m hs, mp.log_pos (div_pos (f_pos hx) hs)]
  · have : f l ((x - m) / s) / s = 0 := by rw [f, if_neg (by simpa using hx), zero_div]
    simp only [logpdf, validate_ok l m hs, ok_bind, pdf_eval hr heps hl m hs, this]
    exact mp.log_zero

theorem affine_z (m : ℝ) (hs : 0 < s) (q : ℝ) : (m + s * q - m) / s = q := by
  rw [add_sub_cancel_left, mul_div_cancel_left₀ _ hs.ne']

/-- C05: for `lam ≥ 0`, assuming that the solver finds the root -/
theorem inverts_cdf (hr : BisectFinder findroot) (heps : 0 < eps) (hl : 0 ≤ l) (hs : 0 < s) :
    Inverts {x | (x - m) / s ∈ S l} (cdf findroot (fin eps) · (fin l) (fin m) (fin s)) (invcdf · (fin l) (fin m) (fin s)) := by
  refine ⟨fun p h0 h1 => ⟨m + s * Q l p, ?_, invcdf_eval l m hs ⟨h0, h1⟩, ?_⟩,
    fun x hx => ⟨F l ((x - m) / s), (F_spec hx).1.1, (F_spec hx).1.2, cdf_std_eval hr heps hl m hs x, ?_⟩⟩
  · simp only [mem_setOf_eq, affine_z m hs]; exact Q_mem ⟨h0, h1⟩
  · show cdf _ _ _ _ _ _ = _
    rw [cdf_std_eval hr heps hl m hs, affine_z m hs, F_Q ⟨h0, h1⟩]
  · show invcdf _ _ _ _ = _
    rw [invcdf_eval l m hs (F_spec hx).1, (F_spec hx).2, mul_div_cancel₀ _ hs.ne', add_sub_cancel]

theorem invsf_eval (l m : ℝ) (hs : 0 < s) {p : ℝ} (hp : p ∈ Ioo (0:ℝ) 1) : invsf (fin p) (fin l) (fin m) (fin s) = .ok (fin (m - s * Q l p)) := by
  simp only [invsf, neg_fin, invcdf_eval l (-m) hs hp, ok_bind, pure_eq_ok]
  congr 2; ring

/-- C05: for `lam ≥ 0`, assuming that the solver finds the root -/
theorem inverts_sf (hr : BisectFinder findroot) (heps : 0 < eps) (hl : 0 ≤ l) (hs : 0 < s) :
    Inverts {x | (x - m) / s ∈ S l} (sf findroot (fin eps) · (fin l) (fin m) (fin s)) (invsf · (fin l) (fin m) (fin s)) := by
  have hz : ∀ p : ℝ, (m - s * Q l p - m) / s = Q l (1 - p) := fun p => by
    rw [Q_reflect, sub_sub_cancel_left, neg_div, mul_div_cancel_left₀ _ hs.ne']
  refine ⟨fun p h0 h1 => ⟨m - s * Q l p, ?_, invsf_eval l m hs ⟨h0, h1⟩, ?_⟩,
    fun x hx => ⟨1 - F l ((x - m) / s), sub_pos.2 (F_spec hx).1.2, sub_lt_self 1 (F_spec hx).1.1, sf_eval hr heps hl m hs x, ?_⟩⟩
  · simp only [mem_setOf_eq, hz]; exact Q_mem ⟨sub_pos.2 h1, sub_lt_self 1 h0⟩
  · show sf _ _ _ _ _ _ = _
    rw [sf_eval hr heps hl m hs, hz, F_Q ⟨sub_pos.2 h1, sub_lt_self 1 h0⟩, sub_sub_cancel]
  · show invsf _ _ _ _ = _
    rw [invsf_eval l m hs ⟨sub_pos.2 (F_spec hx).1.2, sub_lt_self 1 (F_spec hx).1.1⟩, Q_reflect, (F_spec hx).2]
    congr 2; field_simp; ring

/-- C05: for `lam < 0` the distribution function inverts the quantile function, except in the tails, where the search
in `cdf` can fail (see `cdf_fails_right`, `cdf_fails_left`) -/
theorem inverts_neg_partial (hr : BisectFinder findroot) (heps : 0 < eps) (hl : l < 0) (hs : 0 < s) {p : ℝ} (h0 : √eps < p) (h1 : p < 1 - √eps) :
    ∃ x y, invcdf (fin p) (fin l) (fin m) (fin s) = .ok (fin x) ∧ cdf findroot (fin eps) (fin x) (fin l) (fin m) (fin s) = .ok (fin p) ∧
      invsf (fin p) (fin l) (fin m) (fin s) = .ok (fin y) ∧ sf findroot (fin eps) (fin y) (fin l) (fin m) (fin s) = .ok (fin p) := by
  have hd : 0 < √eps := Real.sqrt_pos.2 heps
  have hp : p ∈ Ioo (0:ℝ) 1 := ⟨hd.trans h0, by linarith⟩
  refine ⟨_, _, invcdf_eval l m hs hp, ?_, invsf_eval l m hs hp, ?_⟩
  · have e : F l ((m + s * Q l p - m) / s) = p := by rw [affine_z m hs, F_Q hp]
    rw [cdf_neg_eval hr heps hl m hs (by rw [e]; exact h0) (by rw [e]; exact h1), e]
  · have e : F l ((-(m - s * Q l p) - -m) / s) = p := by
      rw [show -(m - s * Q l p) - -m = s * Q l p by ring, mul_div_cancel_left₀ _ hs.ne', F_Q hp]
    rw [sf_eq, cdf_neg_eval hr heps hl (-m) hs (by rw [e]; exact h0) (by rw [e]; exact h1), e]

example : √((1:ℝ) / 10 ^ 16) < 1 / 1000 ∧ (1:ℝ) / 1000 < 1 - √(1 / 10 ^ 16) := by
  rw [show (1:ℝ) / 10 ^ 16 = (1 / 10 ^ 8) ^ 2 by norm_num, Real.sqrt_sq (by norm_num)]
  norm_num

/-- C03: for `lam < 0`, away from the tails, the density is the derivative of the distribution function (the quantile
function's inverse, by `inverts_neg_partial`). -/
theorem deriv_neg_partial (hr : BisectFinder findroot) (heps : 0 < eps) (hl : l < 0) (hs : 0 < s) :
    ∃ G g : ℝ → ℝ, (∀ x, HasDerivAt G (g x) x) ∧ (∀ x, 0 < g x) ∧ ∀ x, √eps < G x → G x < 1 - √eps →
      cdf findroot (fin eps) (fin x) (fin l) (fin m) (fin s) = .ok (fin (G x)) ∧
      pdf findroot (fin eps) (fin x) (fin l) (fin m) (fin s) = .ok (fin (g x)) := by
  have hS : ∀ z, z ∈ S l := fun z => by simp [S, hl.not_gt]
  refine ⟨fun x => F l ((x - m) / s), fun x => f l ((x - m) / s) / s, fun x => ?_, fun x => div_pos (f_pos (hS _)) hs, fun x h0 h1 =>
    ⟨cdf_neg_eval hr heps hl m hs h0 h1, pdf_neg_eval hr heps hl m hs h0 h1⟩⟩
  have h1 : HasDerivAt (F l) (f l ((x - m) / s)) ((x - m) / s) := by
    rw [f, if_pos (hS _), one_div]
    exact HasDerivAt.of_local_left_inverse (isDist l).cont.continuousAt (hasDerivAt_Q (F_spec (hS _)).1) (q_pos (F_spec (hS _)).1).ne'
      (Eventually.of_forall fun y => (F_spec (hS y)).2)
  have h2 : HasDerivAt (fun x : ℝ => (x - m) / s) (1 / s) x := ((hasDerivAt_id x).sub_const m).div_const s
  have h3 := HasDerivAt.comp x h1 h2
  rw [mul_one_div] at h3
  exact h3

/-- C02 fails for `lam < 0`: far in the right tail the bracket keeps the end `p = 1`, where the quantile function is
infinite, and the distribution function returns nan. -/
theorem cdf_fails_right {tol : ℝ} (hr : AndersonFinder tol findroot) (heps : 0 < eps) (hl : l < 0) (hs : 0 < s) (htl : tol * -l ≤ 1) {t : ℝ}
    (h0 : 0 < t) (h1 : tol ≤ t) (h2 : t ≤ 3 / 8 * √eps) (h3 : t ≤ 1 / 4) :
    cdf findroot (fin eps) (fin (m - s * (t ^ l / l))) (fin l) (fin m) (fin s) = .ok nan := by
  obtain ⟨-, -, hr⟩ := hr
  set z := -(t ^ l / l) with hzdef
  have htp : 0 < t ^ l := Real.rpow_pos_of_pos h0 l
  have hz0 : 0 < z := by rw [hzdef, ← div_neg]; exact div_pos htp (neg_pos.2 hl)
  have hx : (m - s * (t ^ l / l) - m) / s = z := by rw [hzdef]; field_simp; ring
  have hS : z ∈ S l := by simp [S, hl.not_gt]
  have hle : l * -z = t ^ l := by rw [hzdef, neg_neg, mul_div_cancel₀ _ hl.ne]
  have htail : tail l (-z) = t := by
    rw [tail, hle, ← Real.rpow_mul h0.le, mul_one_div_cancel hl.ne, Real.rpow_one]
  have hc4 : (4:ℝ) ^ (-l) ≤ t ^ l := by
    rw [Real.rpow_neg (by norm_num), ← Real.inv_rpow (by norm_num)]
    exact Real.rpow_le_rpow_of_nonpos h0 (by rw [← one_div]; exact h3) hl.le
  have h22 : (4:ℝ) ^ (-l) = 2 ^ (-l) * 2 ^ (-l) := by rw [← Real.mul_rpow (by norm_num) (by norm_num)]; norm_num
  have h21 : (1:ℝ) < 2 ^ (-l) := Real.one_lt_rpow (by norm_num) (by linarith)
  have h2l : -l / 2 < 2 ^ (-l) := by
    have := Real.add_one_le_exp (Real.log 2 * -l)
    have hlog : 1 / 2 < Real.log 2 := by have := Real.log_two_gt_d9; linarith
    rw [Real.rpow_def_of_pos two_pos]
    nlinarith
  have c1 : -2 ^ (-l) / l < z := by
    rw [hzdef, neg_div, neg_lt_neg_iff]
    exact div_lt_div_of_neg_of_lt hl (by nlinarith)
  have c2 : 2 ^ (-l - 1) < z := by
    have e : (2:ℝ) ^ (-l - 1) = 2 ^ (-l) / 2 := by rw [Real.rpow_sub two_pos, Real.rpow_one]
    rw [e, hzdef, ← div_neg, lt_div_iff₀ (neg_pos.2 hl)]
    nlinarith
  have hbr : cdfSolverBracket (fin z) (fin l) = .ok (fin (1 - t), fin 1) := by
    simp only [cdfSolverBracket, one_def, fin_div _ hl.ne, ok_bind, zero_def, fin_lt, hl, hz0.not_gt, if_true, if_false, bracketPos_eval hl, c1, c2,
      htail]
  have htg := tail_gt (z := -z) hl (by rw [neg_div] at c1; linarith)
  rw [htail, F_neg] at htg
  have hF := (F_spec hS).1
  have hd : 0 < √eps := Real.sqrt_pos.2 heps
  have hm : 7 / 8 ≤ (1 - t + 1) / 2 := by linarith
  have hmd : √eps * (7 / 8) ≤ √eps * ((1 - t + 1) / 2) := mul_le_mul_of_nonneg_left hm hd.le
  obtain ⟨lo, hi, e2, a1, a2, a3, a4, a5, -, a7⟩ := refine_spec heps hl.ne hS (by linarith) le_rfl (by linarith [htg.2.2] : 1 - t < F l z) hF.2
  -- the loop body is not entered
  have hlo : refineBracket (fin eps) (fin (1 - t)) (fin 1) (fin z) (fin l) = .ok (fin (1 - t), fin 1) := by
    have hm1 : 1 - t ∈ Ioo (0:ℝ) 1 := ⟨by linarith, by linarith⟩
    have hrun : run (fun fuel => loop (refineCond (fin ((1 - t + 1) / 2)) (fin √eps)) (refineStep (fin z) (fin l) (mp.sign (fin (Q l (1 - t) - z)))) fuel
        (fin (1 - t), fin 1, False)) = .ok (fin (1 - t), fin 1, False) := by
      refine run_of (N := 1) fun n hn => ?_
      obtain ⟨n, rfl⟩ : ∃ j, n = j + 1 := ⟨n - 1, by omega⟩
      have hc : refineCond (fin ((1 - t + 1) / 2)) (fin √eps) (fin (1 - t), fin 1, False) = .ok False := by
        have h5 : (1 - t + 1) / 2 ≠ 0 := by linarith
        have h6 : ¬ √eps < (1 - (1 - t)) / ((1 - t + 1) / 2) := by
          rw [lt_div_iff₀ (by linarith)]; linarith
        simp only [refineCond, if_false, fin_sub, fin_div _ h5, ok_bind, gt_iff, fin_lt, h6, pure_eq_ok]
      simp only [loop, hc, ok_bind, if_false, pure_eq_ok]
    have ei : invcdf (fin 1) (fin l) = .ok pinf := invcdf_one_neg 0 hl one_pos
    simp only [refineBracket, fin_add, ofNat_def, fin_div _ (two_ne_zero (α := ℝ)), ok_bind, mp.sqrt_nonneg heps.le, invcdf_std l hm1, ei, fin_sub, hrun,
      pure_eq_ok]
  rw [cdf_neg_solve hl m hs (by rw [hx]; exact hz0.ne'), hx]
  simp only [cdfSolve, hbr, hlo, ok_bind]
  have hm1 : 1 - t ∈ Ioo (0:ℝ) 1 := ⟨by linarith, by linarith⟩
  have hQ : Q l (1 - t) - z = (1 - t) ^ l / l := by
    have := Q_tail (z := -z) hl (neg_neg_of_pos hz0)
    rw [htail] at this
    rw [Q_reflect, this]; ring
  have h1t : 1 ≤ (1 - t) ^ l := Real.one_le_rpow_of_pos_of_le_one_of_nonpos hm1.1 hm1.2.le hl.le
  have ei : invcdf (fin 1) (fin l) = .ok pinf := invcdf_one_neg 0 hl one_pos
  refine hr _ (1 - t) 1 ((1 - t) ^ l / l) (by linarith) hm1.2 ?_ (div_neg_of_pos_of_neg (by linarith) hl) ?_ ?_ ?_
  · simp only [invcdf_std l hm1, ok_bind, fin_sub, pure_eq_ok, hQ]
  · rw [← div_neg, le_div_iff₀ (neg_pos.2 hl)]; linarith
  · simp only [ei, ok_bind, pure_eq_ok]; rfl
  · simp only [invcdf_nan hl.ne, ok_bind, pure_eq_ok]; rfl

/-- The hypotheses of `cdf_fails_right` are met with `lam = -1`, a solver with tolerance `10^-10` and 16 digits. -/
example : (∃ findroot, AndersonFinder (1 / 10 ^ 10) findroot) ∧ (0:ℝ) < 1 / 10 ^ 16 ∧ ((1:ℝ) / 10 ^ 10) * -(-1) ≤ 1 ∧
    ((1:ℝ) / 10 ^ 10) ≤ 3 / 8 * √(1 / 10 ^ 16) := by
  refine ⟨exists_andersonFinder _, by norm_num, by norm_num, ?_⟩
  rw [show (1:ℝ) / 10 ^ 16 = (1 / 10 ^ 8) ^ 2 by norm_num, Real.sqrt_sq (by norm_num)]
  norm_num

/-- C02 fails for `lam < 0` near 0 also in the left tail: the bracket keeps the end `p = 0`. -/
theorem cdf_fails_left {tol : ℝ} (hr : AndersonFinder tol findroot) (heps : 0 < eps) (hl : l < 0) (hs : 0 < s) {p : ℝ} (h0 : 0 < p)
    (h1 : p < √eps / 8) (h3 : p < 1 / 2) (h2 : 2 ^ (-l) / l ≤ Q l p) (h4 : Q l p < -2 ^ (-l - 1)) :
    ∃ x, invcdf (fin p) (fin l) (fin m) (fin s) = .ok (fin x) ∧ cdf findroot (fin eps) (fin x) (fin l) (fin m) (fin s) = .ok nan := by
  obtain ⟨-, hr, -⟩ := hr
  have hp : p ∈ Ioo (0:ℝ) 1 := ⟨h0, by linarith⟩
  refine ⟨_, invcdf_eval l m hs hp, ?_⟩
  have hz0 : Q l p < 0 := by
    have : (0:ℝ) < 2 ^ (-l - 1) := Real.rpow_pos_of_pos two_pos _
    linarith
  have hbr : cdfSolverBracket (fin (Q l p)) (fin l) = .ok (fin 0, fin (1 / 2)) := by
    simp only [cdfSolverBracket, one_def, fin_div _ hl.ne, ok_bind, zero_def, fin_lt, hl, hz0, if_true, bracketNeg_eval hl, h2.not_gt, h4, if_false]
  have hF : F l (Q l p) = p := F_Q hp
  obtain ⟨lo, hi, e2, a1, a2, a3, a4, a5, a6, -⟩ := refine_spec heps hl.ne (Q_mem hp) le_rfl (by norm_num : (1:ℝ) / 2 ≤ 1) (by rw [hF]; exact h0)
    (by rw [hF]; exact h3)
  obtain ⟨rfl, hlt⟩ := a6 (by rw [hF]; linarith)
  rw [cdf_neg_solve hl m hs (by rw [affine_z m hs]; exact hz0.ne), affine_z m hs]
  simp only [cdfSolve, hbr, e2, ok_bind]
  have hhi : hi ∈ Ioo (0:ℝ) 1 := ⟨hlt, by linarith⟩
  have ei : invcdf (fin 0) (fin l) = .ok ninf := invcdf_zero_neg 0 hl one_pos
  refine hr _ 0 hi (Q l hi - Q l p) hlt ?_ ?_ ?_
  · simp only [ei, ok_bind, pure_eq_ok]; rfl
  · simp only [invcdf_std l hhi, ok_bind, pure_eq_ok, fin_sub]
  · simp only [invcdf_nan hl.ne, ok_bind, pure_eq_ok]; rfl

/-- The hypotheses of `cdf_fails_left` are met with `lam = -1/30`, `p = 2^-30` and 16 digits. -/
example : (0:ℝ) < (1 / 2) ^ 30 ∧ ((1:ℝ) / 2) ^ 30 < √(1 / 10 ^ 16) / 8 ∧ ((1:ℝ) / 2) ^ 30 < 1 / 2 ∧
    2 ^ (-(-(1 / 30) : ℝ)) / (-(1 / 30)) ≤ Q (-(1 / 30)) ((1 / 2) ^ 30) ∧ Q (-(1 / 30)) ((1 / 2) ^ 30) < -2 ^ (-(-(1 / 30) : ℝ) - 1) := by
  have e1 : (((1:ℝ) / 2) ^ 30) ^ (-(1 / 30) : ℝ) = 2 := by
    rw [← Real.rpow_natCast, ← Real.rpow_mul (by norm_num)]
    norm_num
  have e2 : (1:ℝ) ≤ (1 - (1 / 2) ^ 30) ^ (-(1 / 30) : ℝ) :=
    Real.one_le_rpow_of_pos_of_le_one_of_nonpos (by norm_num) (by norm_num) (by norm_num)
  have e4 : (2:ℝ) ^ ((1:ℝ) / 30) ≤ 3 / 2 := by
    refine (Real.rpow_le_rpow_of_exponent_le one_le_two (by norm_num : (1:ℝ) / 30 ≤ 1 / 2)).trans ?_
    rw [← Real.sqrt_eq_rpow]
    exact Real.sqrt_le_iff.2 ⟨by norm_num, by norm_num⟩
  have e3 : (1 - (1 / 2) ^ 30) ^ (-(1 / 30) : ℝ) ≤ (3:ℝ) / 2 := by
    refine le_trans ?_ e4
    have h : (2:ℝ) ^ ((1:ℝ) / 30) = (1 / 2) ^ (-(1 / 30) : ℝ) := by
      rw [one_div 2, Real.inv_rpow (by norm_num), Real.rpow_neg (by norm_num), inv_inv]
    rw [h]
    exact Real.rpow_le_rpow_of_nonpos (by norm_num) (by norm_num) (by norm_num)
  have e5 : (1:ℝ) ≤ 2 ^ ((1:ℝ) / 30) := Real.one_le_rpow one_le_two (by norm_num)
  have e6 : (2:ℝ) ^ ((1:ℝ) / 30 - 1) ≤ 1 := Real.rpow_le_one_of_one_le_of_nonpos one_le_two (by norm_num)
  have e7 : √((1:ℝ) / 10 ^ 16) = 1 / 10 ^ 8 := by
    rw [show (1:ℝ) / 10 ^ 16 = (1 / 10 ^ 8) ^ 2 by norm_num, Real.sqrt_sq (by norm_num)]
  have e8 : Q (-(1 / 30)) ((1 / 2) ^ 30) = -30 * (2 - (1 - (1 / 2) ^ 30) ^ (-(1 / 30) : ℝ)) := by
    rw [Q, if_neg (by norm_num), e1]; ring
  rw [neg_neg, e7, e8]
  refine ⟨by positivity, by norm_num, by norm_num, ?_, ?_⟩ <;> linarith

/-- C06 -/
theorem rejects_p (hs : 0 < s) : RejectsBadP (invcdf · (fin l) (fin m) (fin s)) ∧ RejectsBadP (invsf · (fin l) (fin m) (fin s)) := by
  constructor <;> intro p hp <;> simp [invcdf, invsf, validateP_bad hp]

/-- C07: for `lam ≥ 0` -/
theorem validates (hr : BisectFinder findroot) (heps : 0 < eps) (hl : 0 ≤ l) (x : ℝ) :
    ValidatesExactly (0 < s) (cdf findroot (fin eps) (fin x) (fin l) (fin m) (fin s)) ∧
    ValidatesExactly (0 < s) (sf findroot (fin eps) (fin x) (fin l) (fin m) (fin s)) ∧
    ValidatesExactly (0 < s) (pdf findroot (fin eps) (fin x) (fin l) (fin m) (fin s)) := by
  refine ⟨⟨fun h => ⟨_, cdf_std_eval hr heps hl m h x⟩, fun h => ?_⟩, ⟨fun h => ⟨_, sf_eval hr heps hl m h x⟩, fun h => ?_⟩,
    ⟨fun h => ⟨_, pdf_eval hr heps hl m h x⟩, fun h => ?_⟩⟩
  · simp [cdf, validate_bad l m (not_lt.1 h)]
  · simp [sf, cdf, validate_bad l (-m) (not_lt.1 h)]
  · simp [pdf, validate_bad l m (not_lt.1 h)]

/-- C07: the other functions, for every `lam` -/
theorem validates_rest (l : ℝ) {p : ℝ} (hp : p ∈ Ioo (0:ℝ) 1) (hb : s ≤ 0) (x : ℝ) (n : ℕ) :
    invcdf (fin p) (fin l) (fin m) (fin s) = .error .valueError ∧ invsf (fin p) (fin l) (fin m) (fin s) = .error .valueError ∧
    support (fin l) (fin m) (fin s) = .error .valueError ∧ mean (fin l) (fin m) (fin s) = .error .valueError ∧
    var (fin l) (fin m) (fin s) = .error .valueError ∧ noncentralMoment n (fin l) (fin m) (fin s) = .error .valueError ∧
    cdf findroot (fin eps) (fin x) (fin l) (fin m) (fin s) = .error .valueError ∧
    pdf findroot (fin eps) (fin x) (fin l) (fin m) (fin s) = .error .valueError ∧
    logpdf findroot (fin eps) (fin x) (fin l) (fin m) (fin s) = .error .valueError := by
  have hv : validateMomentN (n : ℤ) = .ok n := by simp [validateMomentN]
  refine ⟨?_, ?_, ?_, ?_, ?_, ?_, ?_, ?_, ?_⟩ <;>
  simp [invcdf, invsf, support, mean, var, noncentralMoment, cdf, pdf, logpdf, validateP_ok hp.1.le hp.2.le, validate_bad l m hb, validate_bad l (-m) hb, hv]

/-- C08 -/
theorem locScale (hr : BisectFinder findroot) (heps : 0 < eps) (hl : 0 ≤ l) :
    LocScaleInvariant (cdf findroot (fin eps) · (fin l) · ·) ∧ LocScaleInvariant (sf findroot (fin eps) · (fin l) · ·) ∧
    LocScaleDensity (pdf findroot (fin eps) · (fin l) · ·) :=
  ⟨locScale_of_std fun x m _ hs => cdf_std_eval hr heps hl m hs x,
   locScale_of_std (G := fun z => 1 - F l z) fun x m _ hs => sf_eval hr heps hl m hs x,
   locScaleDensity_of_std fun x m _ hs => pdf_eval hr heps hl m hs x⟩

/-- C37: the mean, for every `lam > -1` -/
theorem isQMean (hl : -1 < l) (hs : 0 < s) : IsQMoment (invcdf · (fin l) (fin m) (fin s)) 1 (mean (fin l) (fin m) (fin s)) := by
  have h := int01_affine1 (a := m) (b := s) (int01_Q hl)
  rw [mul_zero, add_zero] at h
  have h' : Int01 (fun p => (m + s * Q l p) ^ 1) m := h.congr fun p _ _ => pow_one _
  exact ⟨fun p => m + s * Q l p, m, fun p h0 h1 => invcdf_eval l m hs ⟨h0, h1⟩, mean_eval hl m hs, h'.1, h'.2⟩

/-- C37: the variance, for every `lam > -1/2` -/
theorem isQVar (hl : -(1 / 2) < l) (hs : 0 < s) : IsQVar (invcdf · (fin l) (fin m) (fin s)) (var (fin l) (fin m) (fin s)) := by
  have h := int01_affine1 (a := m) (b := s) (int01_Q (by linarith : -1 < l))
  rw [mul_zero, add_zero] at h
  have h' : Int01 (fun p => (m + s * Q l p - m) ^ 2) (s ^ 2 * V l) := ((int01_Q2 hl).mul (s ^ 2)).congr fun p _ _ => by ring
  exact ⟨fun p => m + s * Q l p, m, _, fun p h0 h1 => invcdf_eval l m hs ⟨h0, h1⟩, var_eval hl m hs, h.1, h.2, h'.1, h'.2⟩

/-- C37: for `lam ≤ -1` there is no mean, and the function returns nan -/
theorem mean_none (hl : l ≤ -1) (hs : 0 < s) :
    NoQMoment (invcdf · (fin l) (fin m) (fin s)) 1 ∧ mean (fin l) (fin m) (fin s) = .ok nan := by
  refine ⟨⟨fun p => m + s * Q l p, fun p h0 h1 => invcdf_eval l m hs ⟨h0, h1⟩, ?_⟩, mean_nan hl m hs⟩
  simp only [pow_one]
  exact not_integrableOn_affine hs.ne' (not_int_Q hl)

/-- C37: for `lam ≤ -1/2` there is no variance, and the function returns nan -/
theorem var_none (hl : l ≤ -(1 / 2)) (hs : 0 < s) :
    NoQMoment (invcdf · (fin l) (fin 0) (fin s)) 2 ∧ var (fin l) (fin m) (fin s) = .ok nan := by
  refine ⟨⟨fun p => 0 + s * Q l p, fun p h0 h1 => invcdf_eval l 0 hs ⟨h0, h1⟩, fun h => not_int_Q2 hl ?_⟩, var_nan hl m hs⟩
  have := h.const_mul ((s ^ 2)⁻¹)
  refine this.congr (Eventually.of_forall fun p => ?_)
  simp only [zero_add, mul_pow]
  rw [← mul_assoc, inv_mul_cancel₀ (pow_ne_zero 2 hs.ne'), one_mul]

/-- C37: mean and variance as integrals of the density, for `lam ≥ 0` -/
theorem isMean_isVar (hr : BisectFinder findroot) (heps : 0 < eps) (hl : 0 ≤ l) (hs : 0 < s) :
    IsMean ∅ (pdf findroot (fin eps) · (fin l) (fin m) (fin s)) (mean (fin l) (fin m) (fin s)) ∧
    IsVar ∅ (pdf findroot (fin eps) · (fin l) (fin m) (fin s)) (var (fin l) (fin m) (fin s)) := by
  have h : HasMV (f l) 0 (V l) := HasMV.of_int01 (isDist l) (fun p h0 h1 => F_Q ⟨h0, h1⟩) (int01_Q (by linarith)) (int01_Q2 (by linarith)) (by ring)
  have h2 := h.affine m hs
  rw [mul_zero, add_zero] at h2
  exact ⟨h2.isMean finite_empty (fun x _ => pdf_eval hr heps hl m hs x) (mean_eval (by linarith) m hs),
    h2.isVar finite_empty (fun x _ => pdf_eval hr heps hl m hs x) (var_eval (by linarith) m hs)⟩

/-- C50: the moment of every order `n` with `lam n > -1`, for `lam ≠ 0` -/
theorem isQMoment (hl : l ≠ 0) (n : ℕ) (h : -1 < l * n) (hs : 0 < s) :
    IsQMoment (invcdf · (fin l) (fin m) (fin s)) n (noncentralMoment n (fin l) (fin m) (fin s)) :=
  ⟨fun p => m + s * Q l p, _, fun p h0 h1 => invcdf_eval l m hs ⟨h0, h1⟩, moment_eval hl h m hs, (int01_moment hl h m s).1, (int01_moment hl h m s).2⟩

/-- the fourth moment exists for `lam = -1/5` -/
example : -1 < (-(1 / 5) : ℝ) * (4:ℕ) := by norm_num

/-- C50: the same as an integral of the density, for `lam > 0` -/
theorem isMoment (hr : BisectFinder findroot) (heps : 0 < eps) (hl : 0 < l) (n : ℕ) (hs : 0 < s) :
    IsMoment ∅ (pdf findroot (fin eps) · (fin l) (fin m) (fin s)) n (noncentralMoment n (fin l) (fin m) (fin s)) := by
  have h : -1 < l * n := by have := mul_nonneg hl.le (Nat.cast_nonneg (α := ℝ) n); linarith
  exact isMoment_of_int01 finite_empty (fun x _ => pdf_eval hr heps hl.le m hs x) ((isDist l).affine m hs)
    (fun p h0 h1 => by simp only [affine_z m hs]; exact F_Q ⟨h0, h1⟩) (int01_moment hl.ne' h m s) (moment_eval hl.ne' h m hs)

/-- C50 -/
theorem moment_rejects {n : ℤ} (hn : n < 0) : noncentralMoment n (fin l) (fin m) (fin s) = .error .valueError := by
  simp [noncentralMoment, validateMomentN, hn]

/-- C50 fails: the first moment of a distribution without a mean is given as `loc`. -/
theorem moment_one_fails (hl : l ≤ -1) (hs : 0 < s) :
    NoQMoment (invcdf · (fin l) (fin m) (fin s)) 1 ∧ noncentralMoment 1 (fin l) (fin m) (fin s) = .ok (fin m) := by
  refine ⟨(mean_none hl hs).1, ?_⟩
  have hv : validateMomentN 1 = .ok 1 := by simp [validateMomentN]
  have h0 : standardNoncentralMoment 0 (fin l) = .ok 1 := by simp [standardNoncentralMoment]
  have h1 : standardNoncentralMoment 1 (fin l) = .ok 0 := by simp [standardNoncentralMoment]
  have hb0 := mp.binomial_nat 1 0
  have hb1 := mp.binomial_nat 1 1
  simp only [noncentralMoment, hv, validate_ok l m hs, ok_bind, one_ne_zero, if_false]
  rw [show List.range (1 + 1) = [0, 1] from rfl]
  simp only [List.mapM_cons, List.mapM_nil, hb0, hb1, h0, h1, ok_bind, pure_eq_ok, mp.ipow_fin, zero_def, one_def, fin_mul]
  simp

/-- C50 fails for `lam = 0` (the logistic distribution): the second moment raises ZeroDivisionError. -/
theorem moment_two_raises (hs : 0 < s) : noncentralMoment 2 (fin 0) (fin m) (fin s) = .error .zeroDivision := by
  have hv : validateMomentN 2 = .ok 2 := by simp [validateMomentN]
  have h0 : standardNoncentralMoment 0 (fin 0) = .ok 1 := by simp [standardNoncentralMoment]
  have h1 : standardNoncentralMoment 1 (fin 0) = .ok 0 := by simp [standardNoncentralMoment]
  have h2 : standardNoncentralMoment 2 (fin 0) = .error .zeroDivision := by
    have h3 : ∀ k ∈ List.range (2 + 1),
        (do return fin ((-1) ^ k) * (← mp.binomial (2:ℕ) k) * (← mp.beta (fin 0 * fin k + fin 1) (fin (((2:ℕ):ℝ) - k) * fin 0 + fin 1)) : M Num) =
          .ok (fin ((-1) ^ k * (Nat.choose 2 k : ℝ) * betaFn (0 * k + 1) ((((2:ℕ):ℝ) - k) * 0 + 1))) := by
      intro k _
      simp only [mp.binomial_nat, ok_bind, fin_mul, fin_add, mp.beta_fin (show (0:ℝ) < 0 * k + 1 by simp)
        (show (0:ℝ) < (((2:ℕ):ℝ) - k) * 0 + 1 by simp), pure_eq_ok]
    have hle : ¬ (0 * ((2:ℕ):ℝ) ≤ -1) := by norm_num
    simp only [standardNoncentralMoment, fin_mul, fin_le, hle, if_false, one_def]
    simp only [fin_mul] at h3
    rw [if_neg (by norm_num), if_neg (by norm_num), mapM_ok _ h3]
    simp only [ok_bind, mp.fsum_map_fin, mp.ipow_fin]
    rw [zero_pow two_ne_zero, fin_div_zero]
  have hb0 := mp.binomial_nat 2 0
  have hb1 := mp.binomial_nat 2 1
  have hb2 := mp.binomial_nat 2 2
  simp only [noncentralMoment, hv, validate_ok 0 m hs, ok_bind]
  rw [if_neg (by norm_num), show List.range (2 + 1) = [0, 1, 2] from rfl]
  simp only [List.mapM_cons, hb0, hb1, hb2, h0, h1, h2, ok_bind]
  rfl

/-- C41 -/
theorem support_pos (hl : 0 < l) (hs : 0 < s) : support (fin l) (fin m) (fin s) = .ok (fin (m - s / l), fin (m + s / l)) ∧
    EndPoints (invcdf · (fin l) (fin m) (fin s)) (fin (m - s / l)) (fin (m + s / l)) ∧
    EndPoints (invsf · (fin l) (fin m) (fin s)) (fin (m + s / l)) (fin (m - s / l)) := by
  have a0 := invcdf_closed m hl hs (left_mem_Icc.2 zero_le_one)
  have a1 := invcdf_closed m hl hs (right_mem_Icc.2 zero_le_one)
  have b0 := invcdf_closed (-m) hl hs (left_mem_Icc.2 zero_le_one)
  have b1 := invcdf_closed (-m) hl hs (right_mem_Icc.2 zero_le_one)
  rw [Q_zero hl] at a0 b0
  rw [Q_one hl] at a1 b1
  refine ⟨?_, ⟨?_, ?_⟩, ⟨?_, ?_⟩⟩
  · simp [support, validate_ok l m hs, hl.not_ge, fin_div _ hl.ne']
  · simp only [zero_def, a0]; congr 2; ring
  · simp only [one_def, a1]; congr 2; ring
  · simp only [zero_def, invsf, neg_fin, b0, ok_bind, pure_eq_ok]; congr 2; ring
  · simp only [one_def, invsf, neg_fin, b1, ok_bind, pure_eq_ok]; congr 2; ring

/-- C41 -/
theorem support_nonpos (hl : l ≤ 0) (hs : 0 < s) : support (fin l) (fin m) (fin s) = .ok (ninf, pinf) ∧
    EndPoints (invcdf · (fin l) (fin m) (fin s)) ninf pinf ∧ EndPoints (invsf · (fin l) (fin m) (fin s)) pinf ninf := by
  have hsup : support (fin l) (fin m) (fin s) = .ok (ninf, pinf) := by simp [support, validate_ok l m hs, hl]
  have h0 : ∀ m, invcdf (fin 0) (fin l) (fin m) (fin s) = .ok ninf := fun m => by
    rcases hl.eq_or_lt with h | h
    · have e1 : mp.log1p (fin 0) = .ok (fin 0) := mp_log1p_zero
      simp [invcdf, validateP_ok, validate_ok l m hs, invStd, h, e1, scaleInf_pos hs, validate_ok 0 m hs]
    · exact invcdf_zero_neg m h hs
  have h1 : ∀ m, invcdf (fin 1) (fin l) (fin m) (fin s) = .ok pinf := fun m => by
    rcases hl.eq_or_lt with h | h
    · simp [invcdf, validateP_ok, validate_ok l m hs, invStd, h, scaleInf_pos hs, validate_ok 0 m hs]
    · exact invcdf_one_neg m h hs
  refine ⟨hsup, ⟨h0 m, h1 m⟩, ⟨?_, ?_⟩⟩
  · simp only [zero_def, invsf, neg_fin, h0, ok_bind, pure_eq_ok]; rfl
  · simp only [one_def, invsf, neg_fin, h1, ok_bind, pure_eq_ok]; rfl

/-- C48: for `lam ≥ 0` -/
theorem atInfinities (hl : 0 ≤ l) (hs : 0 < s) :
    AtInfinities (cdf findroot (fin eps) · (fin l) (fin m) (fin s)) (sf findroot (fin eps) · (fin l) (fin m) (fin s)) := by
  have h0 : ∀ m, cdf findroot (fin eps) ninf (fin l) (fin m) (fin s) = .ok 0 := fun m => by
    rcases hl.eq_or_lt with h | h
    · subst h; simp [cdf, validate_ok 0 m hs, ninf_div_pos hs]
    · simp [cdf, validate_ok l m hs, ninf_div_pos hs, h, fin_div _ h.ne']
  have h1 : ∀ m, cdf findroot (fin eps) pinf (fin l) (fin m) (fin s) = .ok 1 := fun m => by
    rcases hl.eq_or_lt with h | h
    · subst h
      simp [cdf, validate_ok 0 m hs, pinf_div_pos hs]
      rw [fin_div _ (one_ne_zero (α := ℝ)), div_one]
    · simp [cdf, validate_ok l m hs, pinf_div_pos hs, h, fin_div _ h.ne']
  exact ⟨h0 m, h1 m, h1 (-m), h0 (-m)⟩

/-- C48 fails for `lam < 0`: `cdf(-inf)` raises ZeroDivisionError. -/
theorem cdf_ninf_raises (heps : 0 < eps) (hl : l < 0) (hs : 0 < s) : cdf findroot (fin eps) ninf (fin l) (fin m) (fin s) = .error .zeroDivision := by
  have hb : cdfSolverBracket ninf (fin l) = .ok (fin 0, fin 0) := by
    have e1 : mp.power 2 (fin (-l)) = .ok (fin (2 ^ (-l))) := mp.power_pos two_pos _
    have e2 : mp.power 2 (fin (-l - 1)) = .ok (fin (2 ^ (-l - 1))) := mp.power_pos two_pos _
    have e3 : (1:ℝ) / l < 0 := one_div_neg.2 hl
    have e4 : mp.power pinf (fin (1 / l)) = .ok (fin 0) := by simp only [mp.power, e3.not_gt, e3.ne, if_false]
    have e5 : fin l * ninf = pinf := by rw [fin_mul_ninf, scaleInf_neg hl]
    simp only [cdfSolverBracket, one_def, fin_div _ hl.ne, ok_bind, zero_def, fin_lt, hl, if_true, bracketNeg, neg_fin, e1, fin_sub, e2, e5, e4]
    simp
  have hr : refineBracket (fin eps) (fin 0) (fin 0) ninf (fin l) = .error .zeroDivision := by
    have ei : invcdf (fin 0) (fin l) = .ok ninf := invcdf_zero_neg 0 hl one_pos
    have hrun : run (fun fuel => loop (refineCond (fin 0) (fin √eps)) (refineStep ninf (fin l) (mp.sign (ninf - ninf))) fuel
        (fin 0, fin 0, False)) = .error .zeroDivision := by
      refine run_of (N := 1) fun n hn => ?_
      obtain ⟨n, rfl⟩ : ∃ j, n = j + 1 := ⟨n - 1, by omega⟩
      have hc : refineCond (fin 0) (fin √eps) (fin 0, fin 0, False) = .error .zeroDivision := by
        simp only [refineCond, if_false, fin_sub, fin_div_zero]; rfl
      simp only [loop, hc]; rfl
    have e2 : mp.sqrt (fin eps) = .ok (fin √eps) := mp.sqrt_nonneg heps.le
    simp only [refineBracket, fin_add, ofNat_def, fin_div _ (two_ne_zero (α := ℝ)), ok_bind, e2, ei, add_zero, zero_div, hrun]
    rfl
  simp only [cdf, validate_ok l m hs, ok_bind, ninf_sub_fin, ninf_div_pos hs, zero_def]
  simp [hl.not_gt, hl.ne, cdfSolve, hb, hr]

end Mpsci.tukeylambda
