import Verif.Lemmas.Psi
import Verif.Model.Fun.Digammainv
import Verif.Spec.RootFinder
import Verif.Lemmas.Fit.Basic
import Mathlib.NumberTheory.Harmonic.GammaDeriv
import Mathlib.Analysis.SpecialFunctions.Trigonometric.DerivHyp
import Mathlib.Analysis.Complex.ExponentialBounds

namespace Mpsci.fun_

open Classical Num Spec Set

theorem psi_one : psi 1 = -Real.eulerMascheroniConstant := by
  rw [Real.eulerMascheroniConstant_eq_neg_deriv, psi, Real.Gamma_one, div_one, neg_neg]

theorem log_three_halves : 2 / 5 ≤ Real.log (3 / 2) := by
  have h := two_mul_le_log (z := 1 / 5) (by norm_num) (by norm_num)
  rw [← Real.log_div (by norm_num) (by norm_num)] at h
  norm_num at h ⊢; linarith

theorem euler_le : Real.eulerMascheroniConstant ≤ 3 / 5 := by
  have h1 := log_sub_half_le_psi (x := 2) (by norm_num)
  have h2 := psi_add_one (x := 1) one_pos
  rw [psi_one] at h2
  norm_num at h2
  have := log_three_halves
  rw [show (2:ℝ) - 1 / 2 = 3 / 2 by norm_num] at h1
  rw [h2] at h1
  linarith

/-- a better lower bound for small arguments -/
theorem psi_ge_shift {x : ℝ} (hx : 0 < x) : Real.log (x + 1 / 2) - 1 / x ≤ psi x := by
  have h1 := log_sub_half_le_psi (x := x + 1) (by linarith)
  rw [psi_add_one hx, show x + 1 - 1 / 2 = x + 1 / 2 by ring] at h1
  linarith

theorem psi_le_shift {x : ℝ} (hx : 0 < x) : psi x ≤ Real.log (x + 1) - 1 / (2 * (x + 1)) - 1 / x := by
  have h1 := psi_le (x := x + 1) (by linarith)
  rw [psi_add_one hx] at h1
  linarith

/-- The bracket that is handed to the root finder contains the solution. -/
def Bracketed (y : ℝ) : Prop := ∃ x0, 0 < x0 ∧ digammainvStart (fin y) = .ok (fin x0) ∧ psi (4 * x0 / 5) ≤ y ∧ y ≤ psi (5 * x0 / 4)

theorem bracket_hi {y : ℝ} (hy : -(1 / 8) < y) : Bracketed y := by
  have he := Real.exp_pos y
  refine ⟨Real.exp y + 1 / 2, by positivity, by
    simp only [digammainvStart, gt_iff, fin_lt, hy, if_true, mp.exp_fin, fin_add, pure_eq_ok], ?_, ?_⟩
  · have h1 := psi_le (x := 4 * (Real.exp y + 1 / 2) / 5) (by positivity)
    set x := 4 * (Real.exp y + 1 / 2) / 5 with hx
    have hx0 : 0 < x := by positivity
    have he : Real.exp y = 5 * x / 4 - 1 / 2 := by rw [hx]; ring
    have h7 : 7 / 8 ≤ Real.exp y := by have := Real.add_one_le_exp y; linarith
    -- log x - y ≤ x / e^y - 1 ≤ 1/(2x)
    have h2 : Real.log x - y ≤ x / Real.exp y - 1 := by
      have := Real.log_le_sub_one_of_pos (div_pos hx0 (Real.exp_pos y))
      rwa [Real.log_div hx0.ne' (Real.exp_pos y).ne', Real.log_exp] at this
    have hxl : 11 / 10 ≤ x := by rw [hx]; linarith
    have h3 : x / Real.exp y - 1 ≤ 1 / (2 * x) := by
      rw [he]
      have : 0 < 5 * x / 4 - 1 / 2 := by linarith
      rw [sub_le_iff_le_add, div_le_iff₀ this]
      have e : (1 / (2 * x) + 1) * (5 * x / 4 - 1 / 2) = 5 * x / 4 + 1 / 8 - 1 / (4 * x) := by field_simp; ring
      rw [e]
      have : 1 / (4 * x) ≤ 1 / 4 := by rw [div_le_div_iff₀ (by positivity) (by norm_num)]; linarith
      linarith
    linarith
  · have h1 := log_sub_half_le_psi (x := Real.exp y + 1 / 2) (by linarith)
    rw [add_sub_cancel_right, Real.log_exp] at h1
    exact h1.trans (psi_mono (by positivity) (by linarith))

theorem bracket_lo {y : ℝ} (hy : y ≤ -3) : Bracketed y := by
  have hg := euler_le
  have hg0 := Real.one_half_lt_eulerMascheroniConstant
  set w := -(y + Real.eulerMascheroniConstant) with hw
  have hw0 : 12 / 5 ≤ w := by rw [hw]; linarith
  have hw1 : 0 < w := by linarith
  refine ⟨1 / w, by positivity, ?_, ?_, ?_⟩
  · have hne : y + Real.eulerMascheroniConstant ≠ 0 := by intro h; rw [h] at hw; linarith
    simp only [digammainvStart, gt_iff, fin_lt, show ¬ -(1 / 8) < y by linarith, show ¬ -3 < y by linarith, if_false, mp.euler_def, fin_add,
      one_def, neg_fin, fin_div _ hne]
    rw [hw]; congr 2; field_simp
  · have h1 := psi_le_shift (x := 4 * (1 / w) / 5) (by positivity)
    set u := 4 * (1 / w) / 5 with hu
    have hu0 : 0 < u := by positivity
    have h2 : Real.log (u + 1) ≤ u := by have := Real.log_le_sub_one_of_pos (show 0 < u + 1 by linarith); linarith
    have h3 : 1 / u = 5 * w / 4 := by rw [hu]; field_simp
    have h4 : u ≤ 1 / 3 := by
      rw [hu, show 4 * (1 / w) / 5 = 4 / (5 * w) by field_simp, div_le_div_iff₀ (by positivity) (by norm_num)]; linarith
    have h5 : 3 / 8 ≤ 1 / (2 * (u + 1)) := by rw [div_le_div_iff₀ (by norm_num) (by positivity)]; linarith
    have e : y = -w - Real.eulerMascheroniConstant := by rw [hw]; ring
    rw [h3] at h1
    linarith
  · have hv : (0:ℝ) < 5 * (1 / w) / 4 := by positivity
    have h1 := psi_add_one hv
    have h2 : psi 1 ≤ psi (5 * (1 / w) / 4 + 1) := psi_mono one_pos (by linarith)
    rw [psi_one, h1, show 1 / (5 * (1 / w) / 4) = 4 * w / 5 by field_simp] at h2
    have e : y = -w - Real.eulerMascheroniConstant := by rw [hw]; ring
    linarith

theorem start_mid {y : ℝ} (h1 : -3 < y) (h2 : y ≤ -(1 / 8)) :
    digammainvStart (fin y) = .ok (fin (Real.exp (y / (2332 / 1000)) + 8661 / 100000)) := by
  simp only [digammainvStart, gt_iff, fin_lt, show ¬ -(1 / 8) < y by linarith, h1, if_false, if_true,
    fin_div _ (show (2332 / 1000 : ℝ) ≠ 0 by norm_num), ok_bind, mp.exp_fin, fin_add, pure_eq_ok]

theorem half_sub_inv_le_log {r : ℝ} (h0 : 0 < r) (h1 : r ≤ 1) : (r - 1 / r) / 2 ≤ Real.log r := by
  have h := Real.self_le_sinh_iff.2 (show 0 ≤ -Real.log r from neg_nonneg.2 (Real.log_nonpos h0.le h1))
  rw [Real.sinh_eq, neg_neg, Real.exp_neg, Real.exp_log h0] at h
  rw [one_div]; linarith

theorem mid_lower {y : ℝ} (h1 : -3 < y) (h2 : y ≤ -(1 / 8)) :
    psi (4 * (Real.exp (y / (2332 / 1000)) + 8661 / 100000) / 5) ≤ y := by
  set r := Real.exp (y / (2332 / 1000) / 2) with hr
  have hr0 : 0 < r := Real.exp_pos _
  have ht : Real.exp (y / (2332 / 1000)) = r ^ 2 := by rw [hr, ← Real.exp_nat_mul]; congr 1; push_cast; ring
  have hr1 : r ≤ 1 := by rw [hr, Real.exp_le_one_iff]; linarith
  have hr2 : 52 / 100 ≤ r := by
    -- r ≥ exp(-0.6433) and exp(0.6433) ≤ 1/0.52
    rw [hr]
    have h3 : Real.exp (-(65 / 100)) ≤ Real.exp (y / (2332 / 1000) / 2) := Real.exp_le_exp.2 (by linarith)
    refine le_trans ?_ h3
    have h4 : Real.exp (65 / 100) ≤ 100 / 52 := by
      have := Real.exp_bound' (x := 65 / 100) (by norm_num) (by norm_num) (n := 5) (by norm_num)
      refine this.trans ?_
      norm_num [Finset.sum_range_succ, Nat.factorial]
    rw [Real.exp_neg, le_inv_comm₀ (by norm_num) (Real.exp_pos _)]
    refine h4.trans (by norm_num)
  have hy : 2332 / 1000 * (r - 1 / r) ≤ y := by
    have := half_sub_inv_le_log hr0 hr1
    rw [hr, Real.log_exp, ← hr] at this
    linarith
  rw [ht]
  set l := 4 * (r ^ 2 + 8661 / 100000) / 5 with hl
  have hl0 : 0 < l := by positivity
  have h3 := psi_le_shift hl0
  have h4 : Real.log (l + 1) ≤ l := by have := Real.log_le_sub_one_of_pos (show 0 < l + 1 by linarith); linarith
  have key : 0 ≤ 2332 / 1000 * (r - 1 / r) - l + 1 / (2 * (l + 1)) + 1 / l := by
    have e : 2332 / 1000 * (r - 1 / r) - l + 1 / (2 * (l + 1)) + 1 / l =
        (2 * 2332 / 1000 * (r ^ 2 - 1) * l * (l + 1) - 2 * r * l ^ 2 * (l + 1) + r * l + 2 * r * (l + 1)) / (2 * r * l * (l + 1)) := by
      field_simp
    rw [e]
    refine div_nonneg ?_ (by positivity)
    have hra : 0 ≤ r - 1 / 2 := by linarith
    have hrb : 0 ≤ 1 - r := by linarith
    have eq : 2 * 2332 / 1000 * (r ^ 2 - 1) * l * (l + 1) - 2 * r * l ^ 2 * (l + 1) + r * l + 2 * r * (l + 1) =
        227065997933969 / 15258789062500 * (r - 1 / 2) ^ 0 * (1 - r) ^ 7 + 1042533821375251 / 7629394531250 * (r - 1 / 2) ^ 1 * (1 - r) ^ 6 + 8434845544650413 / 15258789062500 * (r - 1 / 2) ^ 2 * (1 - r) ^ 5 + 406398053812169 / 305175781250 * (r - 1 / 2) ^ 3 * (1 - r) ^ 4 + 6237423681150159 / 3051757812500 * (r - 1 / 2) ^ 4 * (1 - r) ^ 3 + 14803419480230817 / 7629394531250 * (r - 1 / 2) ^ 5 * (1 - r) ^ 2 + 15660368363817847 / 15258789062500 * (r - 1 / 2) ^ 6 * (1 - r) ^ 1 + 1740982009166219 / 7629394531250 * (r - 1 / 2) ^ 7 * (1 - r) ^ 0 := by
      rw [hl]; ring
    rw [eq]; positivity
  linarith

theorem mid_upper {y : ℝ} (h1 : -3 < y) (h2 : y ≤ -(3 / 8)) :
    y ≤ psi (5 * (Real.exp (y / (2332 / 1000)) + 8661 / 100000) / 4) := by
  set t := Real.exp (y / (2332 / 1000)) with ht
  have ht0 : 0 < t := Real.exp_pos _
  have hy : y = 2332 / 1000 * Real.log t := by rw [ht, Real.log_exp]; ring
  have ht1 : t ≤ 86 / 100 := by
    have h3 : t ≤ Real.exp (-(16 / 100)) := Real.exp_le_exp.2 (by linarith)
    refine h3.trans ?_
    rw [Real.exp_neg, inv_le_comm₀ (Real.exp_pos _) (by norm_num)]
    have := Real.quadratic_le_exp_of_nonneg (show (0:ℝ) ≤ 16 / 100 by norm_num)
    norm_num at this ⊢; linarith
  have ht2 : 27 / 100 ≤ t := by
    have h3 : Real.exp (-(13 / 10)) ≤ t := Real.exp_le_exp.2 (by linarith)
    refine le_trans ?_ h3
    have h4 : Real.exp (65 / 100) ≤ 192 / 100 := by
      have := Real.exp_bound' (x := 65 / 100) (by norm_num) (by norm_num) (n := 5) (by norm_num)
      refine this.trans ?_
      norm_num [Finset.sum_range_succ, Nat.factorial]
    have h5 : Real.exp (13 / 10) = Real.exp (65 / 100) ^ 2 := by rw [← Real.exp_nat_mul]; congr 1; norm_num
    rw [Real.exp_neg, le_inv_comm₀ (by norm_num) (Real.exp_pos _), h5]
    have := pow_le_pow_left₀ (Real.exp_pos _).le h4 2
    refine this.trans (by norm_num)
  -- the difference decreases in `t`, and is positive at 0.86
  set g : ℝ → ℝ := fun t => Real.log (t + 48661 / 100000) + Real.log (5 / 4) - (4 / 5) * (t + 8661 / 100000)⁻¹ - 2332 / 1000 * Real.log t with hg
  have hd : ∀ u, 0 < u → HasDerivAt g (1 / (u + 48661 / 100000) + (4 / 5) * (1 / (u + 8661 / 100000) ^ 2) - 2332 / 1000 * (1 / u)) u := by
    intro u hu
    have a1 : u + 48661 / 100000 ≠ 0 := by positivity
    have a2 : u + 8661 / 100000 ≠ 0 := by positivity
    have := ((((hasDerivAt_id u).add_const (48661 / 100000)).log a1).add_const (Real.log (5 / 4))).sub
      ((((hasDerivAt_id u).add_const (8661 / 100000)).inv a2).const_mul (4 / 5))
    have := this.sub ((Real.hasDerivAt_log hu.ne').const_mul (2332 / 1000))
    refine this.congr_deriv ?_
    simp only [id]; field_simp; ring
  have hanti : AntitoneOn g (Icc (27 / 100) (86 / 100)) := by
    have hp : ∀ u ∈ Icc (27 / 100 : ℝ) (86 / 100), 0 < u := fun u hu => by have := hu.1; linarith
    refine antitoneOn_of_deriv_nonpos (convex_Icc _ _) (fun u hu => (hd u (hp u hu)).continuousAt.continuousWithinAt)
      (fun u hu => (hd u (hp u (interior_subset hu))).differentiableAt.differentiableWithinAt) fun u hu => ?_
    have hu := interior_subset hu
    have hu0 := hp u hu
    rw [(hd u hu0).deriv]
    have e : 1 / (u + 48661 / 100000) + (4 / 5) * (1 / (u + 8661 / 100000) ^ 2) - 2332 / 1000 * (1 / u) =
        -(2332 / 1000 * (u + 48661 / 100000) * (u + 8661 / 100000) ^ 2 - u * (u + 8661 / 100000) ^ 2 - 4 / 5 * u * (u + 48661 / 100000)) /
          ((u + 48661 / 100000) * (u + 8661 / 100000) ^ 2 * u) := by field_simp; ring
    rw [e, neg_div, Left.neg_nonpos_iff]
    refine div_nonneg ?_ (by positivity)
    nlinarith [mul_nonneg (sub_nonneg.2 hu.1) (sub_nonneg.2 hu.2), sq_nonneg (u - 1 / 2), hu.1, hu.2, sq_nonneg (u - 3 / 10),
      mul_nonneg hu0.le (sq_nonneg (u - 1 / 2)), mul_nonneg hu0.le (sq_nonneg (u - 1 / 5))]
  have h3 := hanti ⟨ht2, ht1⟩ ⟨by norm_num, le_rfl⟩ ht1
  have h4 : 0 ≤ g (86 / 100) := by
    have l1 := two_mul_le_log (z := 7 / 93) (by norm_num) (by norm_num)
    rw [← Real.log_div (by norm_num) (by norm_num)] at l1
    have l2 := two_mul_le_log (z := 6832625 / 26832625) (by norm_num) (by norm_num)
    rw [← Real.log_div (by norm_num) (by norm_num)] at l2
    have e1 : Real.log (86 / 100) = -Real.log ((1 + 7 / 93) / (1 - 7 / 93)) := by rw [← Real.log_inv]; norm_num
    have e2 : Real.log (86 / 100 + 48661 / 100000) + Real.log (5 / 4) = Real.log ((1 + 6832625 / 26832625) / (1 - 6832625 / 26832625)) := by
      rw [← Real.log_mul (by norm_num) (by norm_num)]; norm_num
    simp only [hg, e2, e1]
    have e3 : (4 / 5 : ℝ) * (86 / 100 + 8661 / 100000)⁻¹ ≤ 846 / 1000 := by norm_num
    linarith
  have h5 : 0 ≤ g t := h4.trans h3
  have h6 := psi_ge_shift (x := 5 * (t + 8661 / 100000) / 4) (by positivity)
  have e1 : Real.log (5 * (t + 8661 / 100000) / 4 + 1 / 2) = Real.log (t + 48661 / 100000) + Real.log (5 / 4) := by
    rw [← Real.log_mul (by positivity) (by norm_num)]; congr 1; ring
  have e2 : 1 / (5 * (t + 8661 / 100000) / 4) = (4 / 5) * (t + 8661 / 100000)⁻¹ := by field_simp
  rw [e1, e2] at h6
  simp only [hg] at h5
  rw [hy]; linarith

theorem bracket_mid {y : ℝ} (h1 : -3 < y) (h2 : y ≤ -(3 / 8)) : Bracketed y :=
  ⟨_, by have := Real.exp_pos (y / (2332 / 1000)); positivity, start_mid h1 (by linarith), mid_lower h1 (by linarith), mid_upper h1 h2⟩

/-- At `y = -1/8` the bracket misses the solution. -/
theorem bracket_miss : psi (5 * (Real.exp (-(1 / 8) / (2332 / 1000)) + 8661 / 100000) / 4) < -(1 / 8) := by
  set t := Real.exp (-(1 / 8) / (2332 / 1000)) with ht
  have ht0 : 0 < t := Real.exp_pos _
  have ht1 : t ≤ 948 / 1000 := by
    have h3 : t ≤ Real.exp (-(535 / 10000)) := Real.exp_le_exp.2 (by norm_num)
    refine h3.trans ?_
    rw [Real.exp_neg, inv_le_comm₀ (Real.exp_pos _) (by norm_num)]
    have := Real.quadratic_le_exp_of_nonneg (show (0:ℝ) ≤ 535 / 10000 by norm_num)
    norm_num at this ⊢; linarith
  have h1 : psi (5 * (t + 8661 / 100000) / 4) ≤ psi (1294 / 1000) := psi_mono (by positivity) (by linarith)
  have h2 := psi_le (x := 1294 / 1000) (by norm_num)
  have h3 := half_sub_inv_le_log (r := 1000 / 1294) (by norm_num) (by norm_num)
  rw [show (1000 / 1294 : ℝ) = (1294 / 1000)⁻¹ by norm_num, Real.log_inv] at h3
  norm_num at h2 h3 ⊢
  linarith

theorem digammainv_bracketed {findroot : (Num → M Num) → Num → Num → M Num} (hr : RootFinder findroot) {y : ℝ} (h : Bracketed y) :
    ∃ x : ℝ, 0 < x ∧ digammainv findroot (fin y) = .ok (fin x) ∧ psi x = y := by
  obtain ⟨x0, h0, h1, h2, h3⟩ := h
  obtain ⟨x, hx, h4, h5⟩ := hr.up (fun x => do return (← mp.digamma x) - fin y) (fun x => psi x - y) (4 * x0 / 5) (5 * x0 / 4) (by linarith)
    (fun x hx => by
      have : 0 < x := lt_of_lt_of_le (by positivity) hx.1
      simp only [mp.digamma_pos this, ok_bind, fin_sub, pure_eq_ok])
    (ContinuousOn.sub (psi_continuousOn.mono fun x hx => lt_of_lt_of_le (by positivity : 0 < 4 * x0 / 5) hx.1) continuousOn_const)
    (by linarith) (by linarith)
  refine ⟨x, lt_of_lt_of_le (by positivity) hx.1, ?_, by linarith⟩
  simp only [digammainv, h1, ok_bind, ofNat_def, fin_mul, fin_div _ (show (5:ℝ) ≠ 0 by norm_num), fin_div _ (show (4:ℝ) ≠ 0 by norm_num)]
  exact h4

theorem digammainv_sound {findroot : (Num → M Num) → Num → Num → M Num} (hr : SoundFinderB findroot) {y x : ℝ}
    (h : digammainv findroot (fin y) = .ok (fin x)) (hx : 0 < x) : psi x = y := by
  rw [digammainv] at h
  obtain ⟨x0, -, h⟩ := ok_of_bind h
  obtain ⟨a, -, h⟩ := ok_of_bind h
  obtain ⟨b, -, h⟩ := ok_of_bind h
  have := hr _ _ _ _ h
  simp only [mp.digamma_pos hx, ok_bind, fin_sub, pure_eq_ok, zero_def] at this
  have := Num.fin.inj (Except.ok.inj this)
  linarith

end Mpsci.fun_
