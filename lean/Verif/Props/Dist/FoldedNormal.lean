import Verif.Lemmas.Dist.FoldedNormal
import Verif.Props.Dist.Normal

/-! Properties of `folded_normal`, the distribution of `|X|` where `X` is normal. -/

namespace Mpsci.folded_normal

open Classical Num Spec common Filter Topology Set

variable {m s : ℝ}

/-- C01 -/
theorem complementary (hs : 0 < s) : Complementary (cdf · (fin m) (fin s)) (sf · (fin m) (fin s)) :=
  complementary_of (cdf_eval hs) (sf_eval hs)

/-- C02 -/
theorem isCdf (hs : 0 < s) : IsCdf (cdf · (fin m) (fin s)) := (isDist hs).isCdf (cdf_eval hs)

/-- C03 -/
theorem isDensity (hs : 0 < s) : IsDensity ∅ (Ici 0) (pdf · (fin m) (fin s)) (cdf · (fin m) (fin s)) :=
  (isDist hs).isDensity (fun x _ => pdf_eval hs x) (cdf_eval hs) fun _ hx => f_zero (not_le.1 hx)

/-- C04 -/
theorem isLogOf (hs : 0 < s) : IsLogOf ∅ (pdf · (fin m) (fin s)) (logpdf · (fin m) (fin s)) :=
  isLogOf_of (P := Ici 0) (fun _ _ hx => f_pos hs hx) (fun _ _ hx => f_zero (not_le.1 hx)) (fun x _ => pdf_eval hs x)
    (fun _ _ hx => logpdf_on hs hx) (fun _ _ hx => logpdf_off hs (not_le.1 hx))

/-- C07 -/
theorem validates (x : ℝ) :
    ValidatesExactly (0 < s) (cdf (fin x) (fin m) (fin s)) ∧
    ValidatesExactly (0 < s) (sf (fin x) (fin m) (fin s)) ∧
    ValidatesExactly (0 < s) (pdf (fin x) (fin m) (fin s)) ∧
    ValidatesExactly (0 < s) (logpdf (fin x) (fin m) (fin s)) ∧
    ValidatesExactly (0 < s) (mean (fin m) (fin s)) ∧
    ValidatesExactly (0 < s) (var (fin m) (fin s)) := by
  refine ⟨⟨fun h => ⟨_, cdf_eval h x⟩, fun h => ?_⟩, ⟨fun h => ⟨_, sf_eval h x⟩, fun h => ?_⟩,
    ⟨fun h => pdf_returns h x, fun h => ?_⟩, ⟨fun h => logpdf_returns h x, fun h => ?_⟩,
    ⟨fun h => ⟨_, mean_eval h m⟩, fun h => ?_⟩, ⟨fun h => ⟨_, var_eval h m⟩, fun h => ?_⟩⟩ <;>
  simp [cdf, sf, pdf, logpdf, mean, var, validate_bad h]

/-- C12: for `x ≥ 0` the cdf is the normal probability of `[-x, x]`. -/
theorem cdf_eq_normal (hs : 0 < s) {x : ℝ} (hx : 0 ≤ x) : ∃ a b : ℝ,
    normal.cdf (fin x) (fin m) (fin s) = .ok (fin a) ∧ normal.cdf (fin (-x)) (fin m) (fin s) = .ok (fin b) ∧
    cdf (fin x) (fin m) (fin s) = .ok (fin (a - b)) :=
  ⟨_, _, normal.cdf_eval hs x, normal.cdf_eval hs (-x), by rw [cdf_eval hs, F, if_neg (not_lt.2 hx), G]⟩

/-- C12: for `x ≥ 0` the density is the sum of the normal densities at `x` and `-x`. -/
theorem pdf_eq_normal (hs : 0 < s) {x : ℝ} (hx : 0 ≤ x) : ∃ a b : ℝ,
    normal.pdf (fin x) (fin m) (fin s) = .ok (fin a) ∧ normal.pdf (fin (-x)) (fin m) (fin s) = .ok (fin b) ∧
    pdf (fin x) (fin m) (fin s) = .ok (fin (a + b)) :=
  ⟨_, _, normal.pdf_eval hs x, normal.pdf_eval hs (-x), by rw [pdf_eval hs, f, if_neg (not_lt.2 hx), n, n]⟩

/-- C12: the sign of `mu` does not matter. -/
theorem neg_mu (hs : 0 < s) (x : ℝ) :
    pdf (fin x) (fin (-m)) (fin s) = pdf (fin x) (fin m) (fin s) ∧
    cdf (fin x) (fin (-m)) (fin s) = cdf (fin x) (fin m) (fin s) := by
  rw [pdf_eval hs, pdf_eval hs, cdf_eval hs, cdf_eval hs]
  constructor
  · by_cases hx : x < 0
    · rw [f_zero hx, f_zero hx]
    · rw [f, f, if_neg hx, if_neg hx, n_neg, n_neg, neg_neg, add_comm]
  · by_cases hx : x < 0
    · rw [F, F, if_pos hx, if_pos hx]
    · rw [F, F, if_neg hx, if_neg hx, G, G]
      have e1 : (x - -m) / s = -((-x - m) / s) := by ring
      have e2 : (-x - -m) / s = -((x - m) / s) := by ring
      rw [e1, e2, Phi_neg, Phi_neg]; congr 2; ring

/-- C37 -/
theorem isMean (hs : 0 < s) : IsMean ∅ (pdf · (fin m) (fin s)) (mean (fin m) (fin s)) :=
  (hasMV hs).isMean finite_empty (fun x _ => pdf_eval hs x) (mean_eval hs m)

/-- C37 -/
theorem isVar (hs : 0 < s) : IsVar ∅ (pdf · (fin m) (fin s)) (var (fin m) (fin s)) :=
  (hasMV hs).isVar finite_empty (fun x _ => pdf_eval hs x) (var_eval hs m)

/-- C09, when `|mu| ≤ sigma`: the mode is 0. -/
theorem isMode_zero (hs : 0 < s) (hm : |m| ≤ s) (findroot : (Num → M Num) → Num → M Num) (fuel : ℕ) :
    mode findroot fuel (fin m) (fin s) = .ok 0 ∧
    IsMode ∅ (pdf · (fin m) (fin s)) (mode findroot fuel (fin m) (fin s)) := by
  have e : mode findroot fuel (fin m) (fin s) = .ok (fin (s * 0)) := by
    simp [mode, validate_ok hs, hm, zero_def]
  refine ⟨by rw [e, mul_zero, zero_def], isMode_of e (fun x _ => pdf_eval hs x) (notMem_empty _) fun y _ => ?_⟩
  exact f_le_of_k hs le_rfl (fun z hz => k_le_zero (by positivity) ((div_le_one hs).2 hm) hz) y

/-- C09, when `|mu| > sigma`. Partial: it is assumed that the root finder, started at a positive point, returns a
positive root of the equation (the equation also has the root 0, at which the density has a local minimum).
The search for the starting point ends, in any case. -/
theorem isMode_partial (hs : 0 < s) (hm : s < |m|) (findroot : (Num → M Num) → Num → M Num)
    (hfr : ∀ (f : Num → M Num) (g : ℝ → ℝ) (t0 : ℝ), (∀ x, f (fin x) = .ok (fin (g x))) → 0 < t0 →
      (∃ t, 0 < t ∧ g t = 0) → ∃ t, 0 < t ∧ findroot f (fin t0) = .ok (fin t) ∧ g t = 0) :
    ∃ N, ∀ fuel ≥ N, IsMode ∅ (pdf · (fin m) (fin s)) (mode findroot fuel (fin m) (fin s)) := by
  have hr : 1 < |m| / s := (one_lt_div hs).2 hm
  have h0 : 0 < |m| / s := by linarith
  obtain ⟨N, x0, hx0, _, _, hN⟩ := modeGetstart_ends hr
  refine ⟨N, fun fuel hf => ?_⟩
  obtain ⟨t0, ht0, e0⟩ : ∃ t0 : ℝ, 0 < t0 ∧
      (if fin (|m| / s) < fin (5 / 4) then modeGetstart fuel (fin (|m| / s)) else .ok (fin (|m| / s))) = .ok (fin t0) := by
    by_cases h : fin (|m| / s) < fin (5 / 4)
    · rw [if_pos h]; exact ⟨x0, hx0, hN fuel hf⟩
    · rw [if_neg h]; exact ⟨_, h0, rfl⟩
  obtain ⟨t, ht, et, hroot⟩ := hfr (fun x => .ok (x - fin (|m| / s) * mp.tanh (fin (|m| / s) * x)))
    (fun x => x - |m| / s * Real.tanh (|m| / s * x)) t0 (fun x => by simp) ht0 (modeEq_root hr)
  have e : mode findroot fuel (fin m) (fin s) = .ok (fin (s * t)) := by
    by_cases h : fin (|m| / s) < fin (5 / 4)
    · rw [if_pos h] at e0
      simp only [mode, abs_fin, validate_ok hs, ok_bind, fin_le, not_le.2 hm, if_false, fin_div _ hs.ne', if_pos h, e0, et,
        fin_mul, pure_eq_ok]
    · rw [if_neg h] at e0
      rw [← Num.fin.inj (Except.ok.inj e0)] at et
      simp only [mode, abs_fin, validate_ok hs, ok_bind, fin_le, not_le.2 hm, if_false, fin_div _ hs.ne', if_neg h,
        et, fin_mul, pure_eq_ok]
  exact isMode_of e (fun x _ => pdf_eval hs x) (notMem_empty _) fun y _ =>
    f_le_of_k hs ht.le (fun z hz => k_le_root h0 ht hroot hz) y

/-- The loop that looks for a starting point ends. -/
theorem modeGetstart_terminates {r : ℝ} (hr : 1 < r) : ∃ N, ∃ x : ℝ, 0 < x ∧
    ∀ fuel ≥ N, modeGetstart fuel (fin r) = .ok (fin x) := by
  obtain ⟨N, x, h0, _, _, h⟩ := modeGetstart_ends hr
  exact ⟨N, x, h0, h⟩

/-- C48 -/
theorem atInfinities (hs : 0 < s) : AtInfinities (cdf · (fin m) (fin s)) (sf · (fin m) (fin s)) := by
  refine ⟨?_, ?_, ?_, ?_⟩ <;>
  simp [cdf, sf, validate_ok hs, mp.ncdf3, pinf_div_pos hs, ninf_div_pos hs]

theorem support_eq (hs : 0 < s) : support (fin m) (fin s) = .ok (0, pinf) := by simp [support, validate_ok hs]

/-- Non-vacuity: the density at 0 is twice the normal density, and the mode of the case `mu = sigma` is 0. -/
example : pdf (fin 0) (fin 0) (fin 1) = .ok (fin (2 * phi 0)) := by
  rw [pdf_eval one_pos]; simp [f, n]; ring
example : ∃ m s : ℝ, 0 < s ∧ s < |m| := ⟨2, 1, one_pos, by norm_num⟩

end Mpsci.folded_normal
