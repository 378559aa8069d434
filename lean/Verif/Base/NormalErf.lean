import Verif.Base.Normal
import Verif.Base.Erf

/-!
# The normal density, distribution function and inverse error function of mpmath
-/

namespace Mpsci

open Classical Num MeasureTheory Filter Topology Set

/-- `mp.npdf(x, mu, sigma)`: `exp(-(x-mu)**2/(2*sigma**2)) / (sigma*sqrt(2*pi))`. -/
noncomputable def mp.npdf (x : Num) (mu : Num := 0) (sigma : Num := 1) : M Num := do
  let d := x - mu
  let e ← (-(d * d)) /. (2 * (sigma * sigma))
  mp.exp e /. (sigma * fin (Real.sqrt (2 * Real.pi)))
/-- `mp.ncdf(x, mu, sigma)` -/
noncomputable def mp.ncdf3 (x mu sigma : Num) : M Num := do
  return mp.ncdf (← (x - mu) /. sigma)

theorem sqrt_two_pi_pos : 0 < Real.sqrt (2 * Real.pi) := Real.sqrt_pos.2 (by have := Real.pi_pos; positivity)

theorem mp.npdf_fin {s : ℝ} (hs : 0 < s) (x m : ℝ) :
    mp.npdf (fin x) (fin m) (fin s) = .ok (fin (phi ((x - m) / s) / s)) := by
  have h1 : 2 * (s * s) ≠ 0 := by positivity
  have h2 : s * Real.sqrt (2 * Real.pi) ≠ 0 := (mul_pos hs sqrt_two_pi_pos).ne'
  simp only [mp.npdf, fin_sub, fin_mul, neg_fin, ofNat_def, fin_div _ h1, ok_bind, mp.exp_fin, fin_div _ h2, phi]
  congr 2
  have e : -((x - m) * (x - m)) / (2 * (s * s)) = -((x - m) / s) ^ 2 / 2 := by field_simp
  rw [e, mul_comm s, div_div]
theorem mp.npdf_std (x : ℝ) : mp.npdf (fin x) = .ok (fin (phi x)) := by
  have := mp.npdf_fin one_pos x 0
  simpa using this
theorem mp.npdf_std' (x : ℝ) : mp.npdf (fin x) (fin 0) (fin 1) = .ok (fin (phi x)) := mp.npdf_std x

theorem mp.ncdf3_fin {s : ℝ} (hs : 0 < s) (x m : ℝ) :
    mp.ncdf3 (fin x) (fin m) (fin s) = .ok (fin (Phi ((x - m) / s))) := by
  simp [mp.ncdf3, fin_div _ hs.ne']

theorem Phi_zero : Phi 0 = 1 / 2 := by
  have := Phi_neg 0; rw [neg_zero] at this; linarith

theorem hasDerivAt_Phi (x : ℝ) : HasDerivAt Phi (phi x) x := by
  have h := (intervalIntegral.integral_hasDerivAt_right (phi_continuous.intervalIntegrable 0 x)
    (phi_continuous.stronglyMeasurableAtFilter _ _) phi_continuous.continuousAt).const_add (Phi 0)
  refine h.congr_of_eventuallyEq (Eventually.of_forall fun y => ?_)
  have := intervalIntegral.integral_Iic_sub_Iic (a := 0) (b := y) phi_integrable.integrableOn phi_integrable.integrableOn
  simp only [Phi_eq]; rw [← this]; ring

theorem Phi_eq_erf (x : ℝ) : Phi x = (1 + erfR (x / Real.sqrt 2)) / 2 := by
  have h2 : 0 < Real.sqrt 2 := by positivity
  have hp := Real.pi_pos
  have hd : ∀ y, HasDerivAt (fun y => Phi y - (1 + erfR (y / Real.sqrt 2)) / 2) 0 y := fun y => by
    have h1 : HasDerivAt (fun y : ℝ => erfR (y / Real.sqrt 2))
        (2 / Real.sqrt Real.pi * Real.exp (-(y / Real.sqrt 2) ^ 2) * (1 / Real.sqrt 2)) y :=
      (hasDerivAt_erfR _).comp y ((hasDerivAt_id' y).div_const _)
    refine ((hasDerivAt_Phi y).sub ((h1.const_add 1).div_const 2)).congr_deriv ?_
    have e : -(y / Real.sqrt 2) ^ 2 = -y ^ 2 / 2 := by rw [div_pow, Real.sq_sqrt two_pos.le]; ring
    rw [e, phi, Real.sqrt_mul two_pos.le]
    field_simp; ring
  have := is_const_of_deriv_eq_zero (fun y => (hd y).differentiableAt) (fun y => (hd y).deriv) x 0
  simp only [zero_div, erfR_zero, add_zero, Phi_zero, sub_self] at this
  linarith

theorem Phi_strictMono : StrictMono Phi :=
  strictMono_of_deriv_pos fun x => by rw [(hasDerivAt_Phi x).deriv]; exact phi_pos x

theorem Phi_atTop : Tendsto Phi atTop (𝓝 1) := by
  have h : Tendsto (fun x : ℝ => x / Real.sqrt 2) atTop atTop := tendsto_id.atTop_div_const (by positivity)
  have := ((erfR_atTop.comp h).const_add 1).div_const 2
  norm_num at this
  exact this.congr fun x => (Phi_eq_erf x).symm
theorem Phi_atBot : Tendsto Phi atBot (𝓝 0) := by
  have := (Phi_atTop.comp tendsto_neg_atBot_atTop).const_sub 1
  rw [sub_self] at this
  refine this.congr fun x => ?_
  simp [Phi_neg]

/-- The inverse of the error function on (-1, 1). -/
theorem exists_erfR {t : ℝ} (h0 : -1 < t) (h1 : t < 1) : ∃ x, erfR x = t := by
  have hc : Continuous erfR := continuous_iff_continuousAt.2 fun x => (hasDerivAt_erfR x).continuousAt
  obtain ⟨a, ha⟩ := (erfR_atBot.eventually (gt_mem_nhds h0)).exists
  obtain ⟨b, hb⟩ := (erfR_atTop.eventually (lt_mem_nhds h1)).exists
  exact mem_range_of_exists_le_of_exists_ge hc ⟨a, ha.le⟩ ⟨b, hb.le⟩

/-- `mp.erfinv(t)`: raises ValueError outside [-1, 1], is infinite at the ends. -/
noncomputable def mp.erfinv : Num → M Num
  | fin t => if t < -1 ∨ 1 < t then .error .valueError
      else if t = 1 then .ok pinf else if t = -1 then .ok ninf
      else if h : ∃ x, erfR x = t then .ok (fin h.choose) else .error .notModelled
  | nan => .ok nan
  | _ => .error .valueError

theorem mp.erfinv_eval (x : ℝ) : mp.erfinv (fin (erfR x)) = .ok (fin x) := by
  have h0 := neg_one_lt_erfR x
  have h1 := erfR_lt_one x
  have h : ∃ y, erfR y = erfR x := ⟨x, rfl⟩
  rw [mp.erfinv, if_neg (by push Not; exact ⟨h0.le, h1.le⟩), if_neg h1.ne, if_neg h0.ne', dif_pos h]
  congr 2
  exact erfR_strictMono.injective h.choose_spec

@[simp] theorem mp.erfinv_one : mp.erfinv (fin 1) = .ok pinf := by
  rw [mp.erfinv, if_neg (by norm_num), if_pos rfl]
@[simp] theorem mp.erfinv_neg_one : mp.erfinv (fin (-1)) = .ok ninf := by
  rw [mp.erfinv, if_neg (by norm_num), if_neg (by norm_num), if_pos rfl]

/-- The standard normal quantile function. -/
noncomputable def PhiInv (p : ℝ) : ℝ := if h : ∃ x, Phi x = p then h.choose else 0

theorem Phi_PhiInv {p : ℝ} (h0 : 0 < p) (h1 : p < 1) : Phi (PhiInv p) = p := by
  have h : ∃ x, Phi x = p := by
    obtain ⟨y, hy⟩ := exists_erfR (t := 2 * p - 1) (by linarith) (by linarith)
    have h2 : Real.sqrt 2 ≠ 0 := by positivity
    exact ⟨Real.sqrt 2 * y, by rw [Phi_eq_erf, mul_div_cancel_left₀ _ h2, hy]; ring⟩
  rw [PhiInv, dif_pos h]; exact h.choose_spec
theorem PhiInv_Phi (x : ℝ) : PhiInv (Phi x) = x :=
  Phi_strictMono.injective (Phi_PhiInv (Phi_pos x) (Phi_lt_one x))
theorem PhiInv_compl {p : ℝ} (h0 : 0 < p) (h1 : p < 1) : PhiInv (1 - p) = -PhiInv p := by
  refine Phi_strictMono.injective ?_
  rw [Phi_PhiInv (by linarith) (by linarith), Phi_neg, Phi_PhiInv h0 h1]

theorem mp.erfinv_PhiInv {p : ℝ} (h0 : 0 < p) (h1 : p < 1) :
    mp.erfinv (fin (2 * p - 1)) = .ok (fin (PhiInv p / Real.sqrt 2)) := by
  rw [← mp.erfinv_eval]; congr 2
  have := Phi_PhiInv h0 h1
  rw [Phi_eq_erf] at this; linarith

end Mpsci
