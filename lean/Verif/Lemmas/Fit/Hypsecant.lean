import Verif.Model.Fit.Hypsecant
import Verif.Lemmas.Dist.Hypsecant
import Verif.Lemmas.Dist.Benktander1
import Verif.Lemmas.Fit.Logistic
import Verif.Lemmas.Fit

/-! Likelihoods of the hyperbolic secant and the Benktander I distributions. -/

namespace Mpsci.hypsecant

open Classical Num Spec common

variable {xs : List ℝ} {loc s : ℝ}

noncomputable def phi (z : ℝ) : ℝ := Real.log Real.pi + Real.log (Real.cosh z)

theorem phi_deriv (z : ℝ) : HasDerivAt phi (Real.tanh z) z := by
  have h2 := ((hasDerivAt_id' z).cosh).log (Real.cosh_pos z).ne'
  refine (h2.const_add (Real.log Real.pi)).congr_deriv ?_
  rw [Real.tanh_eq_sinh_div_cosh, mul_one]

theorem phi_tangent (z z' : ℝ) : phi z + Real.tanh z * (z' - z) ≤ phi z' :=
  tangent_le (φ' := Real.tanh) phi_deriv logistic.tanh_mono z z'

theorem log_f (hs : 0 < s) (z : ℝ) : Real.log (f z / s) = -(Real.log s + phi z) := by
  have hc := (Real.cosh_pos z).ne'
  rw [f, Real.log_div (div_ne_zero (one_div_ne_zero hc) Real.pi_ne_zero) hs.ne',
    Real.log_div (one_div_ne_zero hc) Real.pi_ne_zero, one_div, Real.log_inv, phi]
  ring

theorem nll_eval (hs : 0 < s) (xs : List ℝ) : nll (xs.map fin) (fin loc) (fin s) =
    .ok (fin ((xs.map fun x => Real.log s + phi ((x - loc) / s)).sum)) := by
  have e1 : (xs.map fin).mapM (fun t => logpdf t (fin loc) (fin s)) =
      .ok ((xs.map fun x => -1 * (Real.log s + phi ((x - loc) / s))).map fin) :=
    mapM_comp_fin fun x _ => by rw [logpdf_eval hs, log_f hs, neg_one_mul]
  simp only [nll, validate_ok hs, ok_bind, validateXBounds_none, e1, mp.fsum_fin, neg_fin, pure_eq_ok]
  rw [List.sum_map_mul_left, neg_one_mul, neg_neg]

theorem eq1_eval (hs : s ≠ 0) : eq1 (xs.map fin) (fin loc) (fin s) =
    .ok (fin (xs.map fun x => Real.tanh ((x - loc) / s)).sum) := by
  have e1 : (xs.map fin).mapM (fun t => do return mp.tanh (← (t - fin loc) /. fin s)) =
      .ok ((xs.map fun x => Real.tanh ((x - loc) / s)).map fin) :=
    mapM_comp_fin fun x _ => by rw [fin_sub, fin_div _ hs, ok_bind, mp.tanh_fin]; rfl
  rw [eq1, e1, ok_bind, mp.fsum_fin]; rfl

theorem eq2_eval (hs : s ≠ 0) : eq2 (xs.map fin) (fin loc) (fin s) =
    .ok (fin ((xs.map fun x => Real.tanh ((x - loc) / s) * ((x - loc) / s)).sum - xs.length)) := by
  have e1 : (xs.map fin).mapM (fun t => do (t - fin loc) * mp.tanh (← (t - fin loc) /. fin s) /. fin s) =
      .ok ((xs.map fun x => Real.tanh ((x - loc) / s) * ((x - loc) / s)).map fin) :=
    mapM_comp_fin fun x _ => by
      rw [fin_sub, fin_div _ hs, ok_bind, mp.tanh_fin, fin_mul, fin_div _ hs]
      congr 2; ring
  rw [eq2, e1, ok_bind, mp.fsum_fin]
  simp [stats.len]

/-- at scale 0 the equations raise, unless there are no data -/
theorem eq1_zero (hn : xs ≠ []) : ∃ e, eq1 (xs.map fin) (fin loc) (fin 0) = .error e := by
  obtain ⟨x, t, rfl⟩ := List.exists_cons_of_ne_nil hn
  exact ⟨_, by simp only [eq1, List.map_cons, List.mapM_cons, fin_sub, fin_div_zero]; rfl⟩

theorem eq2_zero (hn : xs ≠ []) : ∃ e, eq2 (xs.map fin) (fin loc) (fin 0) = .error e := by
  obtain ⟨x, t, rfl⟩ := List.exists_cons_of_ne_nil hn
  exact ⟨_, by simp only [eq2, List.map_cons, List.mapM_cons, fin_sub, fin_div_zero]; rfl⟩

theorem continuous_tanh : Continuous Real.tanh := by
  have e : Real.tanh = fun x => Real.sinh x / Real.cosh x := funext Real.tanh_eq_sinh_div_cosh
  rw [e]; exact Real.continuous_sinh.div Real.continuous_cosh fun x => (Real.cosh_pos x).ne'

theorem tanh_nonneg {z : ℝ} (h : 0 ≤ z) : 0 ≤ Real.tanh z := by
  have := logistic.tanh_mono h
  rwa [Real.tanh_zero] at this

theorem continuous_sum (xs : List ℝ) (s : ℝ) : Continuous fun l => (xs.map fun x => Real.tanh ((x - l) / s)).sum := by
  induction xs with
  | nil => simpa using continuous_const
  | cons a t ih =>
    simp only [List.map_cons, List.sum_cons]
    exact (continuous_tanh.comp ((continuous_const.sub continuous_id).div_const s)).add ih

/-- the equation for the location has a solution -/
theorem exists_loc (hs : 0 < s) (xs : List ℝ) : ∃ l, (xs.map fun x => Real.tanh ((x - l) / s)).sum = 0 := by
  obtain ⟨B, hB, hB0⟩ : ∃ B : ℝ, (∀ x ∈ xs, |x| ≤ B) ∧ 0 ≤ B := by
    induction xs with
    | nil => exact ⟨0, by simp, le_rfl⟩
    | cons a t ih =>
      obtain ⟨B, h, h0⟩ := ih
      refine ⟨max |a| B, fun x hx => ?_, h0.trans (le_max_right _ _)⟩
      rcases List.mem_cons.1 hx with rfl | h1
      · exact le_max_left _ _
      · exact (h x h1).trans (le_max_right _ _)
  have h1 : 0 ≤ (xs.map fun x => Real.tanh ((x - -B) / s)).sum := by
    refine List.sum_nonneg fun y hy => ?_
    obtain ⟨x, hx, rfl⟩ := List.mem_map.1 hy
    exact tanh_nonneg (div_nonneg (by linarith [neg_abs_le x, hB x hx]) hs.le)
  have h2 : (xs.map fun x => Real.tanh ((x - B) / s)).sum ≤ 0 := by
    have e : (xs.map fun x => Real.tanh ((x - B) / s)).sum = -(xs.map fun x => Real.tanh ((B - x) / s)).sum := by
      rw [← neg_one_mul, ← List.sum_map_mul_left]
      refine congrArg List.sum (List.map_congr_left fun x _ => ?_)
      rw [neg_one_mul, ← Real.tanh_neg]; congr 1; ring
    rw [e, neg_nonpos]
    refine List.sum_nonneg fun y hy => ?_
    obtain ⟨x, hx, rfl⟩ := List.mem_map.1 hy
    exact tanh_nonneg (div_nonneg (by linarith [le_abs_self x, hB x hx]) hs.le)
  obtain ⟨l, _, hl⟩ := intermediate_value_Icc' (show -B ≤ B by linarith) (continuous_sum xs s).continuousOn ⟨h2, h1⟩
  exact ⟨l, hl⟩

/-- a solution of the equation for the location minimises `nll` at this scale -/
theorem loc_min (hs : 0 < s) (h1 : (xs.map fun x => Real.tanh ((x - loc) / s)).sum = 0) (l' : ℝ) :
    (xs.map fun x => Real.log s + phi ((x - loc) / s)).sum ≤ (xs.map fun x => Real.log s + phi ((x - l') / s)).sum := by
  have h3 : (xs.map fun x => (Real.log s + phi ((x - loc) / s)) + (loc - l') / s * Real.tanh ((x - loc) / s)).sum ≤
      (xs.map fun x => Real.log s + phi ((x - l') / s)).sum := by
    refine List.sum_le_sum fun x _ => ?_
    have := phi_tangent ((x - loc) / s) ((x - l') / s)
    have e : (x - l') / s - (x - loc) / s = (loc - l') / s := by ring
    rw [e] at this
    linarith
  rw [List.sum_map_add, List.sum_map_mul_left, h1, mul_zero, add_zero] at h3
  exact h3

/-- a solution of `u tanh u = 1`, for the examples with the data -1, 1 -/
theorem exists_u : ∃ u : ℝ, 0 < u ∧ u * Real.tanh u = 1 := by
  have h2 : (1 : ℝ) ≤ 2 * Real.tanh 2 := by
    have hcs := Real.cosh_pos (2:ℝ)
    rw [Real.tanh_eq_sinh_div_cosh, ← mul_div_assoc, le_div_iff₀ hcs, Real.sinh_eq, Real.cosh_eq]
    have e1 := Real.add_one_le_exp (2:ℝ)
    have e2 : Real.exp (-2:ℝ) ≤ 1 := Real.exp_le_one_iff.2 (by norm_num)
    linarith
  obtain ⟨u, hu, hu'⟩ := intermediate_value_Icc (show (0:ℝ) ≤ 2 by norm_num) (continuous_id.mul continuous_tanh).continuousOn
    (show (1 : ℝ) ∈ Set.Icc ((fun u => id u * Real.tanh u) 0) ((fun u => id u * Real.tanh u) 2) from ⟨by simp, h2⟩)
  have hu'' : u * Real.tanh u = 1 := hu'
  exact ⟨u, hu.1.lt_of_ne' (by rintro rfl; simp at hu''), hu''⟩

end Mpsci.hypsecant

namespace Mpsci.benktander1

open Classical Num Spec common

variable {xs : List ℝ} {a b : ℝ}

noncomputable def r1 (a b L : ℝ) : ℝ := 2 * a + 4 * b * L + 1
noncomputable def r2 (a b L : ℝ) : ℝ := a ^ 2 + 4 * a * b * L + a + 4 * b ^ 2 * L ^ 2 + 2 * b * L - 2 * b

theorem t1_eval (L : ℝ) : t1 (fin a) (fin b) (fin L) = fin (r1 a b L) := by
  simp only [t1, ofNat_def, one_def, fin_mul, fin_add, r1]

theorem t2_eval (L : ℝ) : t2 (fin a) (fin b) (fin L) = fin (r2 a b L) := by
  simp only [t2, ofNat_def, mp.ipow_fin, fin_mul, fin_add, fin_sub, r2]

theorem c_eq (ha : a ≠ 0) (L : ℝ) : c a b L = r2 a b L / a := by
  rw [c, r2]; field_simp; ring

theorem r2_pos (ha : 0 < a) (hb : 0 < b) (h : b < a * (a + 1) / 2) {L : ℝ} (hL : 0 ≤ L) : 0 < r2 a b L := by
  have h1 : 0 ≤ 4 * a * b * L := by positivity
  have h2 : 0 ≤ 4 * b ^ 2 * L ^ 2 := by positivity
  have h3 : 0 ≤ 2 * b * L := by positivity
  rw [r2]; nlinarith

/-- minus the logarithm of the density at `exp L`, away from the boundary `b = a (a + 1) / 2` -/
noncomputable def ell (a b L : ℝ) : ℝ := Real.log a - Real.log (r2 a b L) + (2 + a + b * L) * L

theorem hasDerivAt_ell_a (ha : a ≠ 0) {L : ℝ} (h : r2 a b L ≠ 0) :
    HasDerivAt (fun a => ell a b L) (-(-1 / a + (r1 a b L / r2 a b L - L))) a := by
  have h1 : HasDerivAt (fun a => r2 a b L) (r1 a b L) a := by
    have e : (fun a => r2 a b L) = fun a => a ^ 2 + (4 * b * L + 1) * a + (4 * b ^ 2 * L ^ 2 + 2 * b * L - 2 * b) := by
      funext a; rw [r2]; ring
    rw [e]
    refine ((((hasDerivAt_id' a).pow 2).add ((hasDerivAt_id' a).const_mul (4 * b * L + 1))).add_const _).congr_deriv ?_
    rw [r1]; norm_num; ring
  have h3 : HasDerivAt (fun a : ℝ => (2 + a + b * L) * L) L a := by
    refine ((((hasDerivAt_id' a).const_add 2).add_const (b * L)).mul_const L).congr_deriv ?_; ring
  refine (((Real.hasDerivAt_log ha).sub (h1.log h)).add h3).congr_deriv ?_
  ring

theorem hasDerivAt_ell_b {L : ℝ} (h : r2 a b L ≠ 0) :
    HasDerivAt (fun b => ell a b L) (-((r1 a b L * 2 * L - 2) / r2 a b L - L ^ 2)) b := by
  have h1 : HasDerivAt (fun b => r2 a b L) (r1 a b L * 2 * L - 2) b := by
    have e : (fun b => r2 a b L) = fun b => (4 * L ^ 2) * b ^ 2 + (4 * a * L + 2 * L - 2) * b + (a ^ 2 + a) := by
      funext b; rw [r2]; ring
    rw [e]
    refine (((((hasDerivAt_id' b).pow 2).const_mul (4 * L ^ 2)).add ((hasDerivAt_id' b).const_mul (4 * a * L + 2 * L - 2))).add_const _).congr_deriv ?_
    rw [r1]; norm_num; ring
  have h3 : HasDerivAt (fun b : ℝ => (2 + a + b * L) * L) (L ^ 2) b := by
    refine ((((hasDerivAt_id' b).mul_const L).const_add (2 + a)).mul_const L).congr_deriv ?_; ring
  refine (((h1.log h).const_sub (Real.log a)).add h3).congr_deriv ?_
  ring

theorem nll_eval (ha : 0 < a) (hb : 0 < b) (h : b < a * (a + 1) / 2) (hx : ∀ x ∈ xs, 1 ≤ x) :
    nll (xs.map fin) (fin a) (fin b) = .ok (fin (xs.map fun x => ell a b (Real.log x)).sum) := by
  have hv : Valid a b := ⟨ha, hb, h.le⟩
  have e1 : (xs.map fin).mapM (fun t => logpdf t (fin a) (fin b)) =
      .ok ((xs.map fun x => -1 * ell a b (Real.log x)).map fin) :=
    mapM_comp_fin fun x hxm => by
      have hL : 0 ≤ Real.log x := Real.log_nonneg (hx x hxm)
      have hr := r2_pos ha hb h hL
      have hc : c a b (Real.log x) = r2 a b (Real.log x) / a := c_eq ha.ne' _
      rw [logpdf_pos hv (not_lt.2 (hx x hxm)) (by rw [hc]; positivity), f, if_neg (not_lt.2 (hx x hxm)), k, hc,
        Real.log_mul (by positivity) (Real.exp_pos _).ne', Real.log_exp, Real.log_div hr.ne' ha.ne', ell]
      congr 2; ring
  rw [nll, one_def, validateXBounds_ok (by rw [badLow_weak]; rintro ⟨t, h1, h2⟩; exact absurd (hx t h1) h2.not_ge)
    (by simp), ok_bind, validate_ok hv, ok_bind]
  simp only [e1, ok_bind, mp.fsum_fin, neg_fin, pure_eq_ok]
  rw [List.sum_map_mul_left, neg_one_mul, neg_neg]

theorem dlda_eval (ls : List ℝ) (ha : a ≠ 0) (h : ∀ L ∈ ls, r2 a b L ≠ 0) : dlda (ls.map fin) (fin a) (fin b) =
    .ok (fin (ls.map fun L => -1 / a + (r1 a b L / r2 a b L - L)).sum) := by
  have e1 : (ls.map fin).mapM (fun lnx => do return (← t1 (fin a) (fin b) lnx /. t2 (fin a) (fin b) lnx) - lnx) =
      .ok ((ls.map fun L => r1 a b L / r2 a b L - L).map fin) :=
    mapM_comp_fin fun L hL => by rw [t1_eval, t2_eval, fin_div _ (h L hL), ok_bind, fin_sub]; rfl
  rw [dlda, stats.len, List.length_map, neg_fin, fin_div _ ha, ok_bind, e1, ok_bind, mp.fsum_fin, fin_add, pure_eq_ok]
  congr 2
  have e2 := sum_map_affine ls (fun L => r1 a b L / r2 a b L - L) (-1 / a) 1
  simp only [one_mul] at e2
  rw [e2]; ring

theorem dldb_eval (ls : List ℝ) (h : ∀ L ∈ ls, r2 a b L ≠ 0) : dldb (ls.map fin) (fin a) (fin b) =
    .ok (fin (ls.map fun L => (r1 a b L * 2 * L - 2) / r2 a b L - L ^ 2).sum) := by
  have e1 : (ls.map fin).mapM (fun lnx => do
      return (← (t1 (fin a) (fin b) lnx * 2 * lnx - 2) /. t2 (fin a) (fin b) lnx) - mp.ipow lnx 2) =
      .ok ((ls.map fun L => (r1 a b L * 2 * L - 2) / r2 a b L - L ^ 2).map fin) :=
    mapM_comp_fin fun L hL => by
      rw [t1_eval, t2_eval, ofNat_def, fin_mul, fin_mul, fin_sub, fin_div _ (h L hL), ok_bind, mp.ipow_fin, fin_sub]; rfl
  rw [dldb, e1, ok_bind, mp.fsum_fin]; rfl

theorem sum_map_neg (ls : List ℝ) (g : ℝ → ℝ) : (ls.map fun L => -g L).sum = -(ls.map g).sum := by
  rw [← neg_one_mul, ← List.sum_map_mul_left]
  exact congrArg List.sum (List.map_congr_left fun x _ => (neg_one_mul _).symm)

theorem hasDerivAt_sum (ls : List ℝ) {g : ℝ → ℝ → ℝ} {g' : ℝ → ℝ} {t : ℝ}
    (h : ∀ L ∈ ls, HasDerivAt (fun t => g t L) (g' L) t) :
    HasDerivAt (fun t => (ls.map fun L => g t L).sum) (ls.map g').sum t := by
  induction ls with
  | nil => simpa using hasDerivAt_const t (0:ℝ)
  | cons x l ih =>
    simp only [List.map_cons, List.sum_cons]
    exact (h x (by simp)).add (ih fun L hL => h L (by simp [hL]))

end Mpsci.benktander1
