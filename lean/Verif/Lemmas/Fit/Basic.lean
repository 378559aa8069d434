import Verif.Model.Stats.Basic
import Verif.Spec.Fit
import Verif.Lemmas.Fit
import Verif.Lemmas.NormalMle
import Verif.Base.Sort
import Mathlib.Analysis.Calculus.Deriv.MeanValue
import Mathlib.Analysis.SpecialFunctions.Log.Deriv

/-! Tools for estimators. -/

namespace Mpsci

open Classical Num Spec

theorem length_pos {xs : List ℝ} (hn : xs ≠ []) : (0:ℝ) < xs.length := by
  exact_mod_cast List.length_pos_iff.2 hn

theorem len_fin {xs : List ℝ} : stats.len (xs.map fin) = fin (xs.length : ℝ) := by simp [stats.len]

theorem mean_fin {xs : List ℝ} (hn : xs ≠ []) : stats.mean (xs.map fin) = .ok (fin (sampleMean xs)) := by
  simp only [stats.mean, stats.len, mp.fsum_fin, List.length_map, fin_div _ (length_pos hn).ne', sampleMean]

theorem mean_map {xs : List ℝ} (hn : xs ≠ []) (φ : ℝ → ℝ) :
    stats.mean (xs.map fun t => fin (φ t)) = .ok (fin (sampleMean (xs.map φ))) := by
  rw [show (xs.map fun t => fin (φ t)) = (xs.map φ).map fin by simp]
  exact mean_fin (by simpa using hn)

@[simp] theorem mean_nil : stats.mean [] = .error .zeroDivision := by
  simp [stats.mean, stats.len, mp.fsum]

theorem sum_eq_mean {xs : List ℝ} (hn : xs ≠ []) (φ : ℝ → ℝ) :
    (xs.map φ).sum = xs.length * sampleMean (xs.map φ) := by
  have := (length_pos hn).ne'
  rw [sampleMean, List.length_map]; field_simp

theorem sampleMean_const {xs : List ℝ} (hn : xs ≠ []) (c : ℝ) : sampleMean (xs.map fun _ => c) = c := by
  have := (length_pos hn).ne'
  simp [sampleMean]; field_simp

theorem sampleMean_affine {xs : List ℝ} (hn : xs ≠ []) (φ : ℝ → ℝ) (a b : ℝ) :
    sampleMean (xs.map fun x => a + b * φ x) = a + b * sampleMean (xs.map φ) := by
  have := (length_pos hn).ne'
  rw [sampleMean, sum_map_affine, sampleMean, List.length_map, List.length_map]; field_simp

theorem sampleMean_add (xs : List ℝ) (φ ψ : ℝ → ℝ) :
    sampleMean (xs.map fun x => φ x + ψ x) = sampleMean (xs.map φ) + sampleMean (xs.map ψ) := by
  simp only [sampleMean, List.length_map, List.sum_map_add, add_div]

theorem sampleMean_mul (xs : List ℝ) (φ : ℝ → ℝ) (a : ℝ) :
    sampleMean (xs.map fun x => a * φ x) = a * sampleMean (xs.map φ) := by
  simp only [sampleMean, List.length_map, List.sum_map_mul_left, mul_div_assoc]

theorem sampleMean_le {xs : List ℝ} {φ ψ : ℝ → ℝ} (h : ∀ x ∈ xs, φ x ≤ ψ x) :
    sampleMean (xs.map φ) ≤ sampleMean (xs.map ψ) := by
  simp only [sampleMean, List.length_map]
  exact div_le_div_of_nonneg_right (List.sum_le_sum h) (by positivity)

theorem sampleMean_congr {xs : List ℝ} {φ ψ : ℝ → ℝ} (h : ∀ x ∈ xs, φ x = ψ x) :
    sampleMean (xs.map φ) = sampleMean (xs.map ψ) := by
  rw [List.map_congr_left h]

theorem sampleMean_pos {xs : List ℝ} {φ : ℝ → ℝ} (h : ∀ x ∈ xs, 0 ≤ φ x) (h' : ∃ x ∈ xs, 0 < φ x) :
    0 < sampleMean (xs.map φ) := by
  obtain ⟨x, hx, hp⟩ := h'
  have hn : xs ≠ [] := List.ne_nil_of_mem hx
  rw [sampleMean]
  refine div_pos (hp.trans_le ?_) (by simpa using length_pos hn)
  refine List.single_le_sum (l := xs.map φ) ?_ _ (List.mem_map_of_mem hx)
  simp only [List.mem_map]; rintro _ ⟨y, hy, rfl⟩; exact h y hy

theorem sampleVar_eq {xs : List ℝ} (hn : xs ≠ []) :
    sampleMean (xs.map fun x => x ^ 2) - sampleMean xs ^ 2 = sampleVar xs := by
  have h0 := (length_pos hn).ne'
  have h1 := sum_map_sq_sub xs (sampleMean xs)
  have h2 : xs.sum = xs.length * sampleMean xs := by rw [sampleMean]; field_simp
  rw [sampleVar, h1, sampleMean, List.length_map, h2]
  field_simp; ring

theorem mean_sq_fin {xs : List ℝ} (hn : xs ≠ []) : stats.mean ((xs.map fin).map fun t => mp.ipow t 2) =
    .ok (fin (sampleMean (xs.map fun x => x ^ 2))) := by
  rw [List.map_map]
  exact mean_map hn fun x => x ^ 2

/-- `s ↦ log s + A / s` is smallest at `s = A`. -/
theorem log_add_div_min {A s : ℝ} (hA : 0 < A) (hs : 0 < s) : Real.log A + 1 ≤ Real.log s + A / s := by
  have h := Real.log_le_sub_one_of_pos (div_pos hA hs)
  rw [Real.log_div hA.ne' hs.ne'] at h
  linarith

/-- `c ↦ A c - log c` is smallest at `c = 1 / A`. -/
theorem mul_sub_log_min {A c : ℝ} (hA : 0 < A) (hc : 0 < c) : A * (1 / A) - Real.log (1 / A) ≤ A * c - Real.log c := by
  have h := log_add_div_min hA (one_div_pos.2 hc)
  rw [one_div, Real.log_inv, div_inv_eq_mul] at h
  rw [mul_one_div_cancel hA.ne', one_div, Real.log_inv]
  linarith

/-- A family `-sum logpdf`, where it is finite at all data for all admissible parameters. -/
theorem isMle_of {Θ : Type} {valid : Θ → Prop} {nll : Θ → M Num} {est : Θ} {L : Θ → ℝ} (hv : valid est)
    (hl : ∀ θ, valid θ → nll θ = .ok (fin (L θ))) (hm : ∀ θ, valid θ → L est ≤ L θ) : IsMle valid nll est :=
  ⟨hv, _, hl est hv, fun θ h => ⟨_, hl θ h, (fin_le _ _).2 (hm θ h)⟩⟩

theorem negLogLik_eval {logpdf : Num → M Num} {l : ℝ → ℝ} {xs : List ℝ}
    (hl : ∀ x ∈ xs, logpdf (fin x) = .ok (fin (l x))) : negLogLik logpdf (xs.map fin) = .ok (fin (-(xs.map l).sum)) := by
  simp only [negLogLik, mapM_logpdf hl, ok_bind, mp.fsum_fin, neg_fin, pure_eq_ok]

/-- Location-scale families with log-concave density: a solution of the likelihood equations is the maximum.
`φ = -log f`, `φ'` is its derivative (or a subderivative). -/
theorem locScale_stationary {φ φ' : ℝ → ℝ} (hφ : ∀ z z', φ z + φ' z * (z' - z) ≤ φ z') {xs : List ℝ} {loc s : ℝ}
    (hs : 0 < s) (h2 : (xs.map fun x => φ' ((x - loc) / s) * ((x - loc) / s)).sum = xs.length) {loc' s' : ℝ}
    (h1 : (xs.map fun x => φ' ((x - loc) / s)).sum = 0 ∨ loc' = loc) (hs' : 0 < s') :
    (xs.map fun x => Real.log s + φ ((x - loc) / s)).sum ≤ (xs.map fun x => Real.log s' + φ ((x - loc') / s')).sum := by
  have h3 : (xs.map fun x => (Real.log s' - Real.log s - 1) + (φ ((x - loc) / s) + φ' ((x - loc) / s) *
      ((x - loc') / s' - (x - loc) / s)) + (1 + Real.log s)).sum ≤
      (xs.map fun x => Real.log s' + φ ((x - loc') / s')).sum := by
    refine List.sum_le_sum fun x _ => ?_
    have := hφ ((x - loc) / s) ((x - loc') / s')
    linarith
  refine le_trans ?_ h3
  have e : ∀ x : ℝ, (Real.log s' - Real.log s - 1) + (φ ((x - loc) / s) + φ' ((x - loc) / s) *
      ((x - loc') / s' - (x - loc) / s)) + (1 + Real.log s) = (Real.log s + φ ((x - loc) / s)) +
      ((Real.log s' - Real.log s) + (s / s' - 1) * (φ' ((x - loc) / s) * ((x - loc) / s)) +
        (loc - loc') / s' * φ' ((x - loc) / s)) := fun x => by
    field_simp; ring
  simp only [e]
  rw [List.sum_map_add (f := fun x => Real.log s + φ ((x - loc) / s))]
  have h4 : (xs.map fun x => (Real.log s' - Real.log s) + (s / s' - 1) * (φ' ((x - loc) / s) * ((x - loc) / s)) +
        (loc - loc') / s' * φ' ((x - loc) / s)).sum =
      xs.length * (Real.log s' - Real.log s) + (s / s' - 1) * xs.length := by
    rw [List.sum_map_add, sum_map_affine, h2, List.sum_map_mul_left]
    rcases h1 with h | h <;> rw [h] <;> simp
  rw [h4]
  have h5 := log_add_div_min hs hs'
  have h6 : (0:ℝ) ≤ xs.length := by positivity
  nlinarith

/-- The same with the scale held fixed. -/
theorem loc_stationary {φ φ' : ℝ → ℝ} (hφ : ∀ z z', φ z + φ' z * (z' - z) ≤ φ z') {xs : List ℝ} {loc s : ℝ}
    (hs : 0 < s) (h1 : (xs.map fun x => φ' ((x - loc) / s)).sum = 0) (loc' : ℝ) :
    (xs.map fun x => Real.log s + φ ((x - loc) / s)).sum ≤ (xs.map fun x => Real.log s + φ ((x - loc') / s)).sum := by
  have h3 : (xs.map fun x => (Real.log s + φ ((x - loc) / s)) + (loc - loc') / s * φ' ((x - loc) / s)).sum ≤
      (xs.map fun x => Real.log s + φ ((x - loc') / s)).sum := by
    refine List.sum_le_sum fun x _ => ?_
    have := hφ ((x - loc) / s) ((x - loc') / s)
    have e : (x - loc') / s - (x - loc) / s = (loc - loc') / s := by ring
    rw [e] at this; linarith
  rw [List.sum_map_add, List.sum_map_mul_left, h1] at h3
  linarith

theorem ok_of_bind {α β : Type} {m : M α} {f : α → M β} {r : β} (h : (m >>= f) = .ok r) : ∃ a, m = .ok a ∧ f a = .ok r := by
  cases m with
  | error e => exact absurd h (by simp [bind, Except.bind])
  | ok a => exact ⟨a, rfl, h⟩

theorem hasDerivAt_sum_map {xs : List ℝ} {F : ℝ → ℝ → ℝ} {F' : ℝ → ℝ} {t : ℝ}
    (h : ∀ x ∈ xs, HasDerivAt (F x) (F' x) t) : HasDerivAt (fun t => (xs.map fun x => F x t).sum) (xs.map F').sum t := by
  induction xs with
  | nil => simpa using hasDerivAt_const t (0:ℝ)
  | cons a l ih =>
    simp only [List.map_cons, List.sum_cons]
    exact (h a (by simp)).add (ih fun x hx => h x (List.mem_cons_of_mem _ hx))

theorem hasDerivAt_mean {xs : List ℝ} {F : ℝ → ℝ → ℝ} {F' : ℝ → ℝ} {t : ℝ}
    (h : ∀ x ∈ xs, HasDerivAt (F x) (F' x) t) :
    HasDerivAt (fun t => sampleMean (xs.map fun x => F x t)) (sampleMean (xs.map F')) t := by
  simp only [sampleMean, List.length_map]
  exact (hasDerivAt_sum_map h).div_const _

/-- A function on the positive numbers that decreases up to `m` and increases after it is smallest at `m`. -/
theorem min_of_deriv_sign {h h' : ℝ → ℝ} {m : ℝ} (hd : ∀ x, 0 < x → HasDerivAt h (h' x) x) (hm : 0 < m)
    (h1 : ∀ x, 0 < x → x < m → h' x ≤ 0) (h2 : ∀ x, m < x → 0 ≤ h' x) {x : ℝ} (hx : 0 < x) : h m ≤ h x := by
  have hc : ContinuousOn h (Set.Ioi 0) := fun x hx => (hd x hx).continuousAt.continuousWithinAt
  rcases le_total x m with hxm | hxm
  · refine antitoneOn_of_deriv_nonpos (convex_Icc x m) (hc.mono fun y hy => hx.trans_le hy.1)
        (fun y hy => ?_) (fun y hy => ?_) ⟨le_rfl, hxm⟩ ⟨hxm, le_rfl⟩ hxm
    · rw [interior_Icc] at hy
      exact (hd y (hx.trans hy.1)).differentiableAt.differentiableWithinAt
    · rw [interior_Icc] at hy
      rw [(hd y (hx.trans hy.1)).deriv]; exact h1 y (hx.trans hy.1) hy.2
  · refine monotoneOn_of_deriv_nonneg (convex_Ici m) (hc.mono fun y hy => hm.trans_le hy)
        (fun y hy => ?_) (fun y hy => ?_) (Set.mem_Ici.2 le_rfl) hxm hxm
    · rw [interior_Ici] at hy
      exact (hd y (hm.trans hy)).differentiableAt.differentiableWithinAt
    · rw [interior_Ici] at hy
      rw [(hd y (hm.trans hy)).deriv]; exact h2 y hy

/-- A differentiable function with increasing derivative lies above its tangents. -/
theorem tangent_le {φ φ' : ℝ → ℝ} (hd : ∀ z, HasDerivAt φ (φ' z) z) (hm : Monotone φ') (z z' : ℝ) :
    φ z + φ' z * (z' - z) ≤ φ z' := by
  have hg : ∀ y, HasDerivAt (fun y => φ y - φ' z * y) (φ' y - φ' z) y := fun y =>
    ((hd y).sub ((hasDerivAt_id y).const_mul (φ' z))).congr_deriv (by simp)
  have h : (fun y => φ y - φ' z * y) z ≤ (fun y => φ y - φ' z * y) z' := by
    rcases le_total z z' with h | h
    · refine monotoneOn_of_deriv_nonneg (convex_Ici z) (fun y _ => (hg y).continuousAt.continuousWithinAt)
        (fun y _ => (hg y).differentiableAt.differentiableWithinAt) (fun y hy => ?_) (Set.mem_Ici.2 le_rfl) h h
      rw [interior_Ici] at hy
      rw [(hg y).deriv]; linarith [hm (le_of_lt (Set.mem_Ioi.1 hy))]
    · refine antitoneOn_of_deriv_nonpos (convex_Iic z) (fun y _ => (hg y).continuousAt.continuousWithinAt)
        (fun y _ => (hg y).differentiableAt.differentiableWithinAt) (fun y hy => ?_) h (Set.mem_Iic.2 le_rfl) h
      rw [interior_Iic] at hy
      rw [(hg y).deriv]; linarith [hm (le_of_lt (Set.mem_Iio.1 hy))]
  simp only at h
  linarith

end Mpsci
