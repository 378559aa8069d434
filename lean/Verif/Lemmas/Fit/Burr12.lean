import Verif.Lemmas.Fit.Pareto
import Verif.Lemmas.Dist.Burr12
import Verif.Spec.RootFinder
import Mathlib.Topology.Algebra.Monoid
import Mathlib.Analysis.SpecialFunctions.Pow.Asymptotics

/-! `burr12.nll` and the likelihood of the Burr type XII distribution. -/

namespace Mpsci.burr12

open Classical Num Spec common

variable {c d s : ℝ} {xs : List ℝ}

theorem validate_inv {c d s : Num} {t : Num × Num × Num} (h : validateParams c d s = .ok t) : t = (c, d, s) := by
  simp only [validateParams] at h
  split_ifs at h
  exact (Except.ok.inj h).symm

noncomputable def q (c s x : ℝ) : ℝ := (x / s) ^ c
/-- `q/(1 + q)` -/
noncomputable def r (c s x : ℝ) : ℝ := q c s x / (1 + q c s x)

noncomputable def l (c d s x : ℝ) : ℝ :=
  Real.log c + Real.log d + (c - 1) * Real.log x - c * Real.log s - (d + 1) * Real.log (1 + q c s x)

theorem qx_pos (hs : 0 < s) {x : ℝ} (h : 0 < x) : 0 < q c s x := Real.rpow_pos_of_pos (div_pos h hs) c

theorem q_eval (hs : 0 < s) {x : ℝ} (h : 0 < x) :
    (do mp.power (← fin x /. fin s) (fin c)) = .ok (fin (q c s x)) := by
  rw [fin_div _ hs.ne', ok_bind, mp.power_pos (div_pos h hs), q]

theorem logpdf_l (hc : 0 < c) (hd : 0 < d) (hs : 0 < s) {x : ℝ} (h : 0 < x) :
    logpdf (fin x) (fin c) (fin d) (fin s) = .ok (fin (l c d s x)) := by
  have h1 := qx_pos (c := c) hs h
  have h2 : -1 < q c s x := by linarith
  have h3 : mp.power (fin (x / s)) (fin c) = .ok (fin (q c s x)) := mp.power_pos (div_pos h hs) c
  simp only [logpdf, validate_ok hc hd hs, ok_bind, zero_def, fin_le, h.not_ge, if_false, mp.log_pos hc, mp.log_pos hd, mp.log_pos h,
    mp.log_pos hs, fin_div _ hs.ne', h3, mp.log1p_pos h2, one_def, fin_sub, fin_mul, fin_add, pure_eq_ok, l]

theorem bounds (h : ∀ x ∈ xs, 0 < x) : validateXBounds (xs.map fin) (some (fin 0)) (some pinf) true false = .ok (xs.map fin) :=
  bounds_strict h false

theorem bounds_bad (h : ∃ x ∈ xs, ¬ 0 < x) :
    validateXBounds (xs.map fin) (some (fin 0)) (some pinf) true false = .error .valueError := by
  obtain ⟨x, hx, h⟩ := h
  exact validateXBounds_low (badLow_strict.2 ⟨x, hx, not_lt.1 h⟩)

theorem nll_unfold (hc : 0 < c) (hd : 0 < d) (hs : 0 < s) (h : ∀ x ∈ xs, 0 < x) :
    nll (xs.map fin) (fin c) (fin d) (fin s) =
    (do return -(mp.fsum (← (xs.map fin).mapM (logpdf · (fin c) (fin d) (fin s))))) := by
  simp only [nll, validate_ok hc hd hs, ok_bind, zero_def, bounds h]

/-- The mean of `log(1 + q)`. -/
noncomputable def H (xs : List ℝ) (c s : ℝ) : ℝ := sampleMean (xs.map fun x => Real.log (1 + q c s x))
/-- The mean of `r`. -/
noncomputable def R (xs : List ℝ) (c s : ℝ) : ℝ := sampleMean (xs.map (r c s))
/-- The mean of `r log(x/s)`. -/
noncomputable def T (xs : List ℝ) (c s : ℝ) : ℝ := sampleMean (xs.map fun x => r c s x * Real.log (x / s))

/-- The negative log-likelihood per observation. -/
noncomputable def N (xs : List ℝ) (c d s : ℝ) : ℝ :=
  -Real.log c - Real.log d - (c - 1) * sampleMean (xs.map Real.log) + c * Real.log s + (d + 1) * H xs c s

theorem nll_eval (hn : xs ≠ []) (hc : 0 < c) (hd : 0 < d) (hs : 0 < s) (h : ∀ x ∈ xs, 0 < x) :
    nll (xs.map fin) (fin c) (fin d) (fin s) = .ok (fin (xs.length * N xs c d s)) := by
  rw [nll_unfold hc hd hs h, mapM_logpdf fun x hx => logpdf_l hc hd hs (h x hx)]
  simp only [ok_bind, mp.fsum_fin, neg_fin, pure_eq_ok]
  have e : ∀ x, l c d s x = ((Real.log c + Real.log d - c * Real.log s) + (c - 1) * Real.log x) + -(d + 1) * Real.log (1 + q c s x) :=
    fun x => by rw [l]; ring
  rw [List.map_congr_left fun x _ => e x, List.sum_map_add, sum_map_affine xs Real.log, sum_eq_mean hn Real.log,
    List.sum_map_mul_left, sum_eq_mean hn (fun x => Real.log (1 + q c s x)), N, H]
  congr 2; ring

theorem H_pos (hn : xs ≠ []) (hs : 0 < s) (h : ∀ x ∈ xs, 0 < x) : 0 < H xs c s := by
  have h1 : ∀ x ∈ xs, 0 < Real.log (1 + q c s x) := fun x hx => Real.log_pos (by have := qx_pos (c := c) hs (h x hx); linarith)
  obtain ⟨y, hy⟩ := List.exists_mem_of_ne_nil _ hn
  exact sampleMean_pos (fun x hx => (h1 x hx).le) ⟨y, hy, h1 y hy⟩

/-- The two likelihood equations for `c` and the scale. -/
noncomputable def E1 (xs : List ℝ) (c d s : ℝ) : ℝ :=
  1 / c - Real.log s + sampleMean (xs.map Real.log) - (d + 1) * T xs c s
noncomputable def E3 (xs : List ℝ) (c d s : ℝ) : ℝ := 1 - (d + 1) * R xs c s

theorem q_exp (hs : 0 < s) {x : ℝ} (h : 0 < x) : q c s x = Real.exp (c * Real.log (x / s)) := by
  rw [q, Real.rpow_def_of_pos (div_pos h hs), mul_comm]

theorem softplus_tangent (u u' : ℝ) : Real.log (1 + Real.exp u) + Real.exp u / (1 + Real.exp u) * (u' - u) ≤ Real.log (1 + Real.exp u') := by
  have h := log_add_tangent (u := 1) zero_le_one (Real.exp_pos u) (Real.exp_pos u')
  rwa [Real.log_exp, Real.log_exp] at h

/-- In the parameters `c` and `c log s` the likelihood is concave. -/
theorem N_convex (hn : xs ≠ []) (h : ∀ x ∈ xs, 0 < x) (hc : 0 < c) (hd : 0 < d) (hs : 0 < s) {c' s' : ℝ} (hc' : 0 < c') (hs' : 0 < s') :
    N xs c d s - (c' - c) * E1 xs c d s + c' * (Real.log s' - Real.log s) * E3 xs c d s ≤ N xs c' d s' := by
  have h1 : H xs c s + (c' - c) * T xs c s - c' * (Real.log s' - Real.log s) * R xs c s ≤ H xs c' s' := by
    have h2 : sampleMean (xs.map fun x => Real.log (1 + q c s x) +
        ((c' - c) * (r c s x * Real.log (x / s)) + -(c' * (Real.log s' - Real.log s)) * r c s x)) ≤ H xs c' s' := by
      refine sampleMean_le fun x hx => ?_
      have h3 := softplus_tangent (c * Real.log (x / s)) (c' * Real.log (x / s'))
      rw [← q_exp hs (h x hx), ← q_exp hs' (h x hx), ← r] at h3
      refine le_trans (le_of_eq ?_) h3
      rw [Real.log_div (h x hx).ne' hs.ne', Real.log_div (h x hx).ne' hs'.ne']; ring
    rw [sampleMean_add, sampleMean_add, sampleMean_mul, sampleMean_mul, show sampleMean (xs.map fun x => Real.log (1 + q c s x)) = H xs c s from rfl,
      show sampleMean (xs.map fun x => r c s x * Real.log (x / s)) = T xs c s from rfl,
      show sampleMean (xs.map fun x => r c s x) = R xs c s from rfl] at h2
    linarith
  have h4 : Real.log c' ≤ Real.log c + (c' - c) * (1 / c) := by
    have := Real.log_le_sub_one_of_pos (div_pos hc' hc)
    rw [Real.log_div hc'.ne' hc.ne'] at this
    have e : (c' - c) * (1 / c) = c' / c - 1 := by field_simp
    linarith
  have h5 := mul_le_mul_of_nonneg_left h1 (show 0 ≤ d + 1 by linarith)
  simp only [N, E1, E3]
  nlinarith

theorem d_min (hH : 0 < H xs c s) (hd : 0 < d) : N xs c (1 / H xs c s) s ≤ N xs c d s := by
  have h := mul_sub_log_min hH hd
  simp only [N]
  linarith

/-! ### Evaluation of the equations -/

theorem mapM_q (hs : 0 < s) (h : ∀ x ∈ xs, 0 < x) :
    (xs.map fin).mapM (fun t => do mp.power (← t /. fin s) (fin c)) = .ok ((xs.map (q c s)).map fin) :=
  mapM_logpdf fun _ hx => q_eval hs (h _ hx)

theorem dFor_eval (hn : xs ≠ []) (hs : 0 < s) (h : ∀ x ∈ xs, 0 < x) :
    dFor (xs.map fin) (fin c) (fin s) = .ok (fin (1 / H xs c s)) := by
  have h1 : (xs.map fin).mapM (fun xi => do mp.log1p (← mp.power (← xi /. fin s) (fin c))) =
      .ok ((xs.map fun x => Real.log (1 + q c s x)).map fin) := mapM_logpdf fun x hx => by
    have h1 : -1 < q c s x := by have := qx_pos (c := c) hs (h x hx); linarith
    have h3 : mp.power (fin (x / s)) (fin c) = .ok (fin (q c s x)) := mp.power_pos (div_pos (h x hx) hs) c
    rw [fin_div _ hs.ne', ok_bind, h3, ok_bind, mp.log1p_pos h1]
  rw [dFor, h1, ok_bind, mean_fin (by simpa using hn), ok_bind, one_def, show sampleMean (xs.map fun x => Real.log (1 + q c s x)) = H xs c s from rfl,
    fin_div _ (H_pos hn hs h).ne']

theorem mapM_r (hs : 0 < s) (h : ∀ x ∈ xs, 0 < x) :
    ((xs.map (q c s)).map fin).mapM (fun t => t /. (1 + t)) = .ok ((xs.map (r c s)).map fin) := by
  have : ((xs.map (q c s)).map fin).mapM (fun t => t /. (1 + t)) = .ok (((xs.map (q c s)).map fun v => v / (1 + v)).map fin) :=
    mapM_logpdf fun v hv => by
      obtain ⟨x, hx, rfl⟩ := List.mem_map.1 hv
      have h1 : 1 + q c s x ≠ 0 := by have := qx_pos (c := c) hs (h x hx); linarith
      rw [one_def, fin_add, fin_div _ h1]
  rw [this, List.map_map (f := q c s)]; rfl

theorem scaleEqCD_eval (hn : xs ≠ []) (hs : 0 < s) (h : ∀ x ∈ xs, 0 < x) :
    scaleEqCD (fin s) (xs.map fin) (fin c) (fin d) = .ok (fin (E3 xs c d s)) := by
  rw [scaleEqCD, mapM_q hs h, ok_bind, mapM_r hs h, ok_bind, mean_fin (by simpa using hn), ok_bind, one_def, fin_add, fin_mul, fin_sub, pure_eq_ok]
  rfl

theorem sigmoid_eq (hs : 0 < s) {x : ℝ} (h : 0 < x) : 1 / (1 + Real.exp (-(c * Real.log (x / s)))) = r c s x := by
  rw [r, q_exp hs h, Real.exp_neg]
  have := Real.exp_pos (c * Real.log (x / s))
  field_simp
  ring

theorem cEq_eval (hn : xs ≠ []) (hc : c ≠ 0) (hs : 0 < s) (h : ∀ x ∈ xs, 0 < x) :
    cEq (fin c) (xs.map fin) (fin d) (fin s) = .ok (fin (xs.length * E1 xs c d s)) := by
  have h1 : (xs.map fin).mapM (fun xi => xi /. fin s) = .ok ((xs.map (· / s)).map fin) := mapM_logpdf fun x _ => fin_div _ hs.ne'
  have h2 : ((xs.map (· / s)).map fin).mapM mp.log = .ok (((xs.map (· / s)).map Real.log).map fin) := mapM_logpdf fun v hv => by
    obtain ⟨x, hx, rfl⟩ := List.mem_map.1 hv
    exact mp.log_pos (div_pos (h x hx) hs)
  have h3 : ((xs.map (· / s)).map fin).mapM (fun zi => do return (← mp.sigmoid (fin c * (← mp.log zi))) * (← mp.log zi)) =
      .ok (((xs.map (· / s)).map fun z => 1 / (1 + Real.exp (-(c * Real.log z))) * Real.log z).map fin) := mapM_logpdf fun v hv => by
    obtain ⟨x, hx, rfl⟩ := List.mem_map.1 hv
    rw [mp.log_pos (div_pos (h x hx) hs)]
    simp only [ok_bind, fin_mul, mp.sigmoid_fin, pure_eq_ok]
  simp only [pure_eq_ok] at h3
  simp only [cEq, h1, h2, h3, ok_bind, mp.fsum_fin, len_fin, fin_div _ hc, one_def, fin_add, fin_mul, fin_sub, pure_eq_ok]
  rw [List.map_map, List.map_map]
  congr 2
  have e1 : (xs.map (Real.log ∘ (· / s))).sum = xs.length * (sampleMean (xs.map Real.log) - Real.log s) := by
    rw [List.map_congr_left (g := fun x => -Real.log s + 1 * Real.log x) fun x hx => by
      simp only [Function.comp]; rw [Real.log_div (h x hx).ne' hs.ne']; ring, sum_map_affine, sum_eq_mean hn Real.log]
    ring
  have e2 : (xs.map ((fun z => 1 / (1 + Real.exp (-(c * Real.log z))) * Real.log z) ∘ (· / s))).sum = xs.length * T xs c s := by
    rw [List.map_congr_left (g := fun x => r c s x * Real.log (x / s)) fun x hx => by
      simp only [Function.comp]; rw [sigmoid_eq hs (h x hx)], sum_eq_mean hn]
    rfl
  rw [e1, e2, E1]; ring

theorem cEqScaleFixed_eval (hn : xs ≠ []) (hc : c ≠ 0) (hs : 0 < s) (h : ∀ x ∈ xs, 0 < x) :
    cEqScaleFixed (fin c) (xs.map fin) (fin s) = .ok (fin (xs.length * E1 xs c (1 / H xs c s) s)) := by
  rw [cEqScaleFixed, dFor_eval hn hs h, ok_bind, cEq_eval hn hc hs h]

theorem mapM_log1p (hs : 0 < s) (h : ∀ x ∈ xs, 0 < x) :
    ((xs.map (q c s)).map fin).mapM mp.log1p = .ok ((xs.map fun x => Real.log (1 + q c s x)).map fin) := by
  have : ((xs.map (q c s)).map fin).mapM mp.log1p = .ok (((xs.map (q c s)).map fun v => Real.log (1 + v)).map fin) :=
    mapM_logpdf fun v hv => by
      obtain ⟨x, hx, rfl⟩ := List.mem_map.1 hv
      exact mp.log1p_pos (by have := qx_pos (c := c) hs (h x hx); linarith)
  rw [this, List.map_map (f := q c s)]; rfl

theorem eqScale_eval (hn : xs ≠ []) (hs : 0 < s) (h : ∀ x ∈ xs, 0 < x) :
    eqScale (xs.map fin) (fin c) (fin s) = .ok (fin (E3 xs c (1 / H xs c s) s)) := by
  have h1 : (xs.map fin).mapM (fun xi => xi /. fin s) = .ok ((xs.map (· / s)).map fin) := mapM_logpdf fun x _ => fin_div _ hs.ne'
  have h2 : ((xs.map (· / s)).map fin).mapM (fun t => mp.power t (fin c)) = .ok ((xs.map (q c s)).map fin) := by
    have : ((xs.map (· / s)).map fin).mapM (fun t => mp.power t (fin c)) = .ok (((xs.map (· / s)).map (· ^ c)).map fin) :=
      mapM_logpdf fun v hv => by
        obtain ⟨x, hx, rfl⟩ := List.mem_map.1 hv
        exact mp.power_pos (div_pos (h x hx) hs) c
    rw [this, List.map_map (f := (· / s))]; rfl
  have hH := (H_pos (c := c) hn hs h).ne'
  have hl := (length_pos hn).ne'
  have e1 : (xs.map fun x => Real.log (1 + q c s x)).sum = xs.length * H xs c s := sum_eq_mean hn _
  have e2 : (xs.map (r c s)).sum = xs.length * R xs c s := sum_eq_mean hn _
  have h5 := mapM_r (c := c) hs h
  simp only [one_def] at h5
  simp only [eqScale, h1, h2, ok_bind, mapM_log1p hs h, h5, mp.fsum_fin, len_fin, e1, e2, fin_div _ (mul_ne_zero hl hH), fin_div _ hl,
    one_def, fin_add, fin_mul, fin_sub, pure_eq_ok, E3]
  congr 2; field_simp

theorem nllGrad_eval (hn : xs ≠ []) (hc : c ≠ 0) (hd : d ≠ 0) (hs : 0 < s) (h : ∀ x ∈ xs, 0 < x) :
    nllGrad (xs.map fin) (fin c) (fin d) (fin s) = .ok (fin (xs.length * E1 xs c d s), fin (xs.length * (1 / d - H xs c s)),
      fin (-(c * xs.length / s) * E3 xs c d s)) := by
  have h0 : (xs.map fin).mapM mp.log = .ok ((xs.map Real.log).map fin) := mapM_logpdf fun x hx => mp.log_pos (h x hx)
  have h1 : (xs.map fin).mapM (fun xi => xi /. fin s) = .ok ((xs.map (· / s)).map fin) := mapM_logpdf fun x _ => fin_div _ hs.ne'
  have h2 : ((xs.map (· / s)).map fin).mapM (fun zi => do (← mp.power zi (fin c)) /. (1 + (← mp.power zi (fin c)))) =
      .ok ((xs.map (r c s)).map fin) := by
    have : ((xs.map (· / s)).map fin).mapM (fun zi => do (← mp.power zi (fin c)) /. (1 + (← mp.power zi (fin c)))) =
        .ok (((xs.map (· / s)).map fun z => z ^ c / (1 + z ^ c)).map fin) :=
      mapM_logpdf fun v hv => by
        obtain ⟨x, hx, rfl⟩ := List.mem_map.1 hv
        have h1 : 1 + (x / s) ^ c ≠ 0 := by have := qx_pos (c := c) hs (h x hx); rw [q] at this; linarith
        simp only [mp.power_pos (div_pos (h x hx) hs), ok_bind, one_def, fin_add, fin_div _ h1]
    rw [this, List.map_map (f := (· / s))]; rfl
  have h3 : ((xs.map (· / s)).map fin).mapM (fun zi => do mp.log1p (← mp.power zi (fin c))) =
      .ok ((xs.map fun x => Real.log (1 + q c s x)).map fin) := by
    have : ((xs.map (· / s)).map fin).mapM (fun zi => do mp.log1p (← mp.power zi (fin c))) =
        .ok (((xs.map (· / s)).map fun z => Real.log (1 + z ^ c)).map fin) :=
      mapM_logpdf fun v hv => by
        obtain ⟨x, hx, rfl⟩ := List.mem_map.1 hv
        have h1 : -1 < (x / s) ^ c := by have := qx_pos (c := c) hs (h x hx); rw [q] at this; linarith
        simp only [mp.power_pos (div_pos (h x hx) hs), ok_bind, mp.log1p_pos h1]
    rw [this, List.map_map (f := (· / s))]; rfl
  have h4 : (((xs.map (r c s)).map fin).zip ((xs.map (· / s)).map fin)).mapM (fun p => do return p.1 * (← mp.log p.2)) =
      .ok ((xs.map fun x => r c s x * Real.log (x / s)).map fin) := by
    rw [List.map_map, List.map_map, List.zip_map']
    clear h0 h1 h2 h3
    induction xs with
    | nil => rfl
    | cons a t ih =>
      by_cases ht : t = []
      · subst ht
        simp only [List.map_cons, List.map_nil, List.mapM_cons, List.mapM_nil, Function.comp, mp.log_pos (div_pos (h a (by simp)) hs), ok_bind,
          pure_eq_ok, fin_mul]
      · have := ih ht fun x hx => h x (List.mem_cons_of_mem _ hx)
        simp only [pure_eq_ok] at this
        simp only [List.map_cons, List.mapM_cons, Function.comp, mp.log_pos (div_pos (h a (by simp)) hs), ok_bind, pure_eq_ok, fin_mul]
        simp only [Function.comp] at this
        rw [this]; rfl
  simp only [pure_eq_ok] at h4
  simp only [one_def] at h2
  have e1 : (xs.map fun x => Real.log (1 + q c s x)).sum = xs.length * H xs c s := sum_eq_mean hn _
  have e2 : (xs.map (r c s)).sum = xs.length * R xs c s := sum_eq_mean hn _
  have e3 : (xs.map fun x => r c s x * Real.log (x / s)).sum = xs.length * T xs c s := sum_eq_mean hn _
  simp only [nllGrad, h0, h1, h2, h3, h4, ok_bind, mp.fsum_fin, len_fin, e1, e2, e3, sum_eq_mean hn Real.log, fin_div _ hc, fin_div _ hd,
    mp.log_pos hs, one_def, neg_fin, fin_add, fin_mul, fin_sub, fin_div _ hs.ne', pure_eq_ok]
  congr 2
  · rw [E1]; congr 1; ring
  · congr 1
    · congr 1; ring
    · rw [E3]; congr 1; field_simp; ring

/-! ### The brackets -/

theorem bracket_finds {func : Num → M Num} {test : Num → Prop} {g : ℝ → ℝ} {σ ε : ℝ} (hε : 0 < ε)
    (hf : ∀ t, 0 < t → func (fin t) = .ok (fin (g t))) (ht : ∀ v, test (fin v) ↔ σ * v < 0) (h1 : σ * g ε < 0)
    (h2 : ∃ S, ∀ t, S ≤ t → 0 ≤ σ * g t) : ∃ lo hi K, 0 < lo ∧ lo < hi ∧ σ * g lo < 0 ∧ 0 ≤ σ * g hi ∧
    ∀ n ≥ K, bracket func test (fin ε) n = .ok (fin lo, fin hi) := by
  obtain ⟨S, hS⟩ := h2
  obtain ⟨K, hK⟩ : ∃ K : ℕ, S / ε < 4 ^ K := pow_unbounded_of_one_lt _ (by norm_num)
  obtain ⟨k, K', st, ⟨i1, i2, i3⟩, hC, hN⟩ := loop_ends_idx (σ := Num × Num × Num) (cond := fun st => pure (test st.2.2))
    (step := fun st => do
      let b := st.2.1 * 4
      return (st.2.1, b, ← func b))
    (fun k st => st.2.1 = fin (ε * 4 ^ k) ∧ st.2.2 = fin (g (ε * 4 ^ k)) ∧
      (0 < k → ∃ lo, 0 < lo ∧ lo < ε * 4 ^ k ∧ st.1 = fin lo ∧ σ * g lo < 0))
    (fun st => test st.2.2) K (fun _ _ _ => rfl)
    (fun k st ⟨i1, i2, i3⟩ hC => by
      have hp : 0 < ε * 4 ^ (k + 1) := by positivity
      have e : fin (ε * 4 ^ k) * 4 = fin (ε * 4 ^ (k + 1)) := by rw [ofNat_def, fin_mul, pow_succ, mul_assoc]
      refine ⟨(fin (ε * 4 ^ k), fin (ε * 4 ^ (k + 1)), fin (g (ε * 4 ^ (k + 1)))), ?_, ?_⟩
      · simp only [i1, e, hf _ hp, ok_bind, pure_eq_ok]
      · refine ⟨rfl, rfl, fun _ => ⟨_, by positivity, ?_, rfl, ?_⟩⟩
        · rw [pow_succ, ← mul_assoc]
          have : 0 < ε * 4 ^ k := by positivity
          linarith
        · rw [i2, ht] at hC; exact hC)
    (fun k st hk ⟨i1, i2, i3⟩ hC => by
      rw [i2, ht] at hC
      refine absurd (hS (ε * 4 ^ k) ?_) (not_le.2 hC)
      have h3 : (4:ℝ) ^ K ≤ 4 ^ k := pow_le_pow_right₀ (by norm_num) hk
      rw [div_lt_iff₀ hε] at hK
      nlinarith)
    (s := (0, fin ε, fin (g ε))) ⟨by simp, by simp, fun h => absurd h (lt_irrefl _)⟩
  rw [i2, ht, not_lt] at hC
  have hk : 0 < k := by
    rcases Nat.eq_zero_or_pos k with rfl | h
    · rw [pow_zero, mul_one] at hC; exact absurd h1 (not_lt.2 hC)
    · exact h
  obtain ⟨lo, j1, j2, j3, j4⟩ := i3 hk
  refine ⟨lo, ε * 4 ^ k, K', j1, j2, j4, hC, fun n hn => ?_⟩
  simp only [bracket, hf ε hε, ok_bind]
  have := hN n hn
  simp only [pure_eq_ok] at this ⊢
  rw [this, ok_bind, j3, i1]

theorem tendsto_sampleMean {F : ℝ → ℝ → ℝ} {G : ℝ → ℝ} {f : Filter ℝ} (h : ∀ x ∈ xs, Filter.Tendsto (F x) f (nhds (G x))) :
    Filter.Tendsto (fun t => sampleMean (xs.map fun x => F x t)) f (nhds (sampleMean (xs.map G))) := by
  simp only [sampleMean, List.length_map]
  refine Filter.Tendsto.div_const ?_ _
  induction xs with
  | nil => simpa using tendsto_const_nhds
  | cons a t ih =>
    simp only [List.map_cons, List.sum_cons]
    exact (h a (by simp)).add (ih fun x hx => h x (List.mem_cons_of_mem _ hx))

theorem r_mem (hs : 0 < s) {x : ℝ} (h : 0 < x) : r c s x ∈ Set.Ioo (0:ℝ) 1 := by
  have := qx_pos (c := c) hs h
  refine ⟨by rw [r]; positivity, ?_⟩
  rw [r, div_lt_one (by positivity)]; linarith

/-- `r` in terms of `c log(x/s)` -/
theorem r_exp (hs : 0 < s) {x : ℝ} (h : 0 < x) : r c s x = 1 / (1 + Real.exp (-(c * Real.log (x / s)))) := (sigmoid_eq hs h).symm

theorem continuousOn_E3 (hn : xs ≠ []) (h : ∀ x ∈ xs, 0 < x) : ContinuousOn (fun s => E3 xs c d s) (Set.Ioi 0) := by
  refine ContinuousOn.sub continuousOn_const (ContinuousOn.mul continuousOn_const fun s hs => ?_)
  refine tendsto_sampleMean fun x hx => ?_
  have hs : 0 < s := hs
  have h1 : ContinuousAt (fun s => 1 / (1 + Real.exp (-(c * Real.log (x / s))))) s := by
    have h2 : x / s ≠ 0 := (div_pos (h x hx) hs).ne'
    have h3 : ContinuousAt (fun s => x / s) s := continuousAt_const.div continuousAt_id hs.ne'
    have h4 := (Real.continuousAt_log h2).comp h3
    exact continuousAt_const.div (continuousAt_const.add (Real.continuous_exp.continuousAt.comp ((continuousAt_const.mul h4).neg))) (by positivity)
  refine (h1.continuousWithinAt.congr (fun t ht => r_exp ht (h x hx)) (r_exp hs (h x hx)))

theorem continuousOn_E1 (hs : 0 < s) (h : ∀ x ∈ xs, 0 < x) : ContinuousOn (fun c => E1 xs c d s) (Set.Ioi 0) := by
  intro c hc
  have hc : 0 < c := hc
  refine ContinuousWithinAt.sub (((continuousWithinAt_const.div continuousWithinAt_id hc.ne').sub continuousWithinAt_const).add
    continuousWithinAt_const) (ContinuousWithinAt.mul continuousWithinAt_const ?_)
  refine tendsto_sampleMean fun x hx => ?_
  have h1 : Continuous fun c => 1 / (1 + Real.exp (-(c * Real.log (x / s)))) * Real.log (x / s) := by
    have : ∀ c, 1 + Real.exp (-(c * Real.log (x / s))) ≠ 0 := fun c => by positivity
    fun_prop (disch := exact this _)
  simp only [r_exp hs (h x hx)]
  exact h1.continuousAt.continuousWithinAt

/-- For large scales the equation is positive. -/
theorem E3_large (hc : 0 < c) (hd : 0 < d) (hn : xs ≠ []) (h : ∀ x ∈ xs, 0 < x) : ∃ S, ∀ s, S ≤ s → 0 ≤ E3 xs c d s := by
  have h1 : Filter.Tendsto (fun s => E3 xs c d s) Filter.atTop (nhds 1) := by
    have h2 : Filter.Tendsto (fun s => R xs c s) Filter.atTop (nhds (sampleMean (xs.map fun _ => 0))) := by
      refine tendsto_sampleMean fun x hx => ?_
      have h3 : Filter.Tendsto (fun s => q c s x) Filter.atTop (nhds 0) := by
        have h4 : Filter.Tendsto (fun s : ℝ => x / s) Filter.atTop (nhds 0) := tendsto_const_nhds.div_atTop Filter.tendsto_id
        have := h4.rpow_const (p := c) (Or.inr hc.le)
        rwa [Real.zero_rpow hc.ne'] at this
      have := h3.div (h3.const_add 1) (by norm_num)
      rw [zero_div] at this
      exact this
    rw [sampleMean_const hn] at h2
    simpa [E3] using (h2.const_mul (d + 1)).const_sub 1
  obtain ⟨S, hS⟩ := Filter.eventually_atTop.1 (h1.eventually (lt_mem_nhds zero_lt_one))
  exact ⟨S, fun s hs => (hS s hs).le⟩

/-- For large `c` the equation is negative, unless all data are equal to the scale. -/
theorem E1_large (hd : 0 < d) (hs : 0 < s) (h : ∀ x ∈ xs, 0 < x) (hne : ∃ x ∈ xs, x ≠ s) : ∃ C, ∀ c, C ≤ c → E1 xs c d s < 0 := by
  have hn : xs ≠ [] := by obtain ⟨x, hx, -⟩ := hne; exact List.ne_nil_of_mem hx
  have e : ∀ c, E1 xs c d s = 1 / c + sampleMean (xs.map fun x => Real.log (x / s) + -(d + 1) * (r c s x * Real.log (x / s))) := fun c => by
    rw [sampleMean_add, sampleMean_mul, E1, show sampleMean (xs.map fun x => r c s x * Real.log (x / s)) = T xs c s from rfl]
    have : sampleMean (xs.map fun x => Real.log (x / s)) = -Real.log s + 1 * sampleMean (xs.map Real.log) := by
      rw [← sampleMean_affine hn]
      exact sampleMean_congr fun x hx => by rw [Real.log_div (h x hx).ne' hs.ne']; ring
    rw [this]; ring
  have h1 : Filter.Tendsto (fun c => E1 xs c d s) Filter.atTop
      (nhds (0 + sampleMean (xs.map fun x => Real.log (x / s) + -(d + 1) * max (Real.log (x / s)) 0))) := by
    simp only [e]
    refine Filter.Tendsto.add (tendsto_const_nhds.div_atTop Filter.tendsto_id) (tendsto_sampleMean fun x hx => ?_)
    refine Filter.Tendsto.const_add _ (Filter.Tendsto.const_mul _ ?_)
    simp only [r_exp hs (h x hx)]
    rcases lt_trichotomy (Real.log (x / s)) 0 with h2 | h2 | h2
    · rw [max_eq_right h2.le]
      have h3 : Filter.Tendsto (fun c => 1 + Real.exp (-(c * Real.log (x / s)))) Filter.atTop Filter.atTop := by
        refine Filter.tendsto_atTop_add_const_left _ _ (Real.tendsto_exp_atTop.comp ?_)
        have := Filter.tendsto_id.atTop_mul_const (β := ℝ) (show 0 < -Real.log (x / s) by linarith)
        simpa using this
      have := (tendsto_const_nhds (x := (1:ℝ)).div_atTop h3).mul_const (Real.log (x / s))
      simpa using this
    · rw [h2]; simp
    · rw [max_eq_left h2.le]
      have h3 : Filter.Tendsto (fun c => Real.exp (-(c * Real.log (x / s)))) Filter.atTop (nhds 0) :=
        Real.tendsto_exp_neg_atTop_nhds_zero.comp (Filter.tendsto_id.atTop_mul_const h2)
      have := ((tendsto_const_nhds (x := (1:ℝ))).div (h3.const_add 1) (by norm_num)).mul_const (Real.log (x / s))
      simpa using this
  have h2 : 0 + sampleMean (xs.map fun x => Real.log (x / s) + -(d + 1) * max (Real.log (x / s)) 0) < 0 := by
    have h3 := sampleMean_pos (xs := xs) (φ := fun x => -1 * (Real.log (x / s) + -(d + 1) * max (Real.log (x / s)) 0))
      (fun x hx => by
        rcases le_total (Real.log (x / s)) 0 with h4 | h4
        · rw [max_eq_right h4]; linarith
        · rw [max_eq_left h4]; nlinarith)
      (by
        obtain ⟨x, hx, hne⟩ := hne
        refine ⟨x, hx, ?_⟩
        have h4 : Real.log (x / s) ≠ 0 := by
          rw [Real.log_ne_zero]
          have h5 := div_pos (h x hx) hs
          exact ⟨h5.ne', by rwa [ne_eq, div_eq_one_iff_eq hs.ne'], by linarith⟩
        rcases h4.lt_or_gt with h4 | h4
        · rw [max_eq_right h4.le]; linarith
        · rw [max_eq_left h4.le]; nlinarith)
    rw [sampleMean_mul] at h3
    linarith
  obtain ⟨C, hC⟩ := Filter.eventually_atTop.1 (h1.eventually (gt_mem_nhds h2))
  exact ⟨C, hC⟩

end Mpsci.burr12
