import Verif.Model.Fit.Gamma
import Verif.Lemmas.Dist.Gamma
import Verif.Lemmas.Fit.Pareto
import Verif.Lemmas.Fun.Digammainv
import Verif.Lemmas.Newton
import Verif.Lemmas.NormalMle
import Verif.Spec.Derivs

/-! The likelihood of the gamma distribution. -/

namespace Mpsci.gamma

open Classical Num Spec common Set Filter Topology

variable {k s : ℝ} {xs : List ℝ}

theorem bounds (h : ∀ x ∈ xs, 0 ≤ x) : validateXBounds (xs.map fin) (some (fin 0)) (some pinf) false true = .ok (xs.map fin) :=
  bounds_weak h true

theorem logs (h : ∀ x ∈ xs, 0 < x) : (xs.map fin).mapM mp.log = .ok ((xs.map Real.log).map fin) :=
  mapM_logpdf fun x hx => mp.log_pos (h x hx)

noncomputable def l (k s x : ℝ) : ℝ := -Real.log (Real.Gamma k) - k * Real.log s + (k - 1) * Real.log x - x / s

theorem logpdf_l (hk : 0 < k) (hs : 0 < s) {x : ℝ} (h : 0 < x) : logpdf (fin x) (fin k) (fin s) = .ok (fin (l k s x)) := by
  simp only [logpdf, validate_ok hk hs, ok_bind, zero_def, one_def, fin_lt, h.not_gt, if_false, mp.loggamma_pos hk, mp.log_pos hs, mp.log_pos h,
    fin_div _ hs.ne', fin_mul, fin_sub, fin_add, neg_fin, pure_eq_ok, l]

/-- The negative log-likelihood as a function of the two sums. -/
noncomputable def L (xs : List ℝ) (k s : ℝ) : ℝ :=
  -((k - 1) * (xs.map Real.log).sum - xs.sum / s - xs.length * k * Real.log s - xs.length * Real.log (Real.Gamma k))

theorem nll_eval (hx : ∀ x ∈ xs, 0 < x) (hk : 0 < k) (hs : 0 < s) : nll (xs.map fin) (fin k) (fin s) = .ok (fin (L xs k s)) := by
  simp only [nll, validate_ok hk hs, ok_bind, zero_def, one_def, bounds fun x h => (hx x h).le, len_fin, mp.fsum_fin, logs hx,
    fin_div _ hs.ne', mp.log_pos hs, mp.loggamma_pos hk, fin_mul, fin_sub, neg_fin, pure_eq_ok, L]

theorem sum_l (xs : List ℝ) : -(xs.map (l k s)).sum = L xs k s := by
  rw [L, neg_inj]
  induction xs with
  | nil => simp
  | cons a t ih => simp only [List.map_cons, List.sum_cons, ih, l, List.length_cons]; push_cast; ring

theorem grad_eval (hx : ∀ x ∈ xs, 0 < x) (hk : 0 < k) (hs : 0 < s) : nllGrad (xs.map fin) (fin k) (fin s) =
    .ok (fin (-((xs.map Real.log).sum - xs.length * Real.log s - xs.length * psi k)), fin (-(xs.sum / s ^ 2 - xs.length * k / s))) := by
  simp only [nllGrad, validate_ok hk hs, ok_bind, len_fin, mp.fsum_fin, logs hx, mp.log_pos hs, mp.digamma_pos hk, mp.ipow_fin,
    fin_div _ hs.ne', fin_div _ (pow_ne_zero 2 hs.ne'), fin_mul, fin_sub, neg_fin, pure_eq_ok]

noncomputable def H (xs : List ℝ) (k s : ℝ) : Matrix (Fin 2) (Fin 2) ℝ :=
  !![xs.length * psi1 k, xs.length / s; xs.length / s, 2 * xs.sum / s ^ 3 - xs.length * k / s ^ 2]

theorem psi1_eval (hk : 0 < k) : mp.psi 1 (fin k) = .ok (fin (psi1 k)) := by rw [mp.psi_pos 1 hk, iteratedDeriv_psi hk]

theorem hess_eval (hk : 0 < k) (hs : 0 < s) : nllHess (xs.map fin) (fin k) (fin s) = .ok (mat (H xs k s)) := by
  simp only [nllHess, validate_ok hk hs, ok_bind, len_fin, mp.fsum_fin, psi1_eval hk, mp.ipow_fin, ofNat_def, neg_fin,
    fin_div _ hs.ne', fin_div _ (pow_ne_zero 2 hs.ne'), fin_div _ (pow_ne_zero 3 hs.ne'), fin_mul, fin_sub, fin_add, pure_eq_ok, mat, H,
    Matrix.of_apply, Matrix.cons_val', Matrix.cons_val_zero, Matrix.cons_val_one, Matrix.cons_val_fin_one]
  congr 3 <;> congr 1 <;> ring

noncomputable def det (xs : List ℝ) (k s : ℝ) : ℝ :=
  xs.length * psi1 k * (2 * xs.sum / s ^ 3 - xs.length * k / s ^ 2) - (xs.length / s) ^ 2

theorem invhess_eval (hk : 0 < k) (hs : 0 < s) (hd : det xs k s ≠ 0) : nllInvhess (xs.map fin) (fin k) (fin s) =
    .ok (mat !![(2 * xs.sum / s ^ 3 - xs.length * k / s ^ 2) / det xs k s, -(xs.length / s) / det xs k s;
      -(xs.length / s) / det xs k s, xs.length * psi1 k / det xs k s]) := by
  have e : -(xs.length:ℝ) * psi1 k * (-2 * xs.sum / s ^ 3 + xs.length * k / s ^ 2) - (-(xs.length:ℝ) / s) ^ 2 = det xs k s := by rw [det]; ring
  simp only [nllInvhess, validate_ok hk hs, ok_bind, len_fin, mp.fsum_fin, psi1_eval hk, mp.ipow_fin, ofNat_def, neg_fin,
    fin_div _ hs.ne', fin_div _ (pow_ne_zero 2 hs.ne'), fin_div _ (pow_ne_zero 3 hs.ne'), fin_mul, fin_sub, fin_add, e, fin_div _ hd, pure_eq_ok, mat,
    Matrix.of_apply, Matrix.cons_val', Matrix.cons_val_zero, Matrix.cons_val_one, Matrix.cons_val_fin_one]
  congr 3 <;> congr 1 <;> ring

theorem invhess_singular (hk : 0 < k) (hs : 0 < s) (hd : det xs k s = 0) : nllInvhess (xs.map fin) (fin k) (fin s) = .error .zeroDivision := by
  have e : -(xs.length:ℝ) * psi1 k * (-2 * xs.sum / s ^ 3 + xs.length * k / s ^ 2) - (-(xs.length:ℝ) / s) ^ 2 = 0 := by
    rw [← hd, det]; ring
  simp only [nllInvhess, validate_ok hk hs, ok_bind, len_fin, mp.fsum_fin, psi1_eval hk, mp.ipow_fin, ofNat_def, neg_fin,
    fin_div _ hs.ne', fin_div _ (pow_ne_zero 2 hs.ne'), fin_div _ (pow_ne_zero 3 hs.ne'), fin_mul, fin_sub, fin_add, e, fin_div_zero]
  rfl

theorem deriv_k (hk : 0 < k) : HasDerivAt (fun k => L xs k s) (-((xs.map Real.log).sum - xs.length * Real.log s - xs.length * psi k)) k := by
  have h := (((((hasDerivAt_id k).sub_const 1).mul_const (xs.map Real.log).sum).sub_const (xs.sum / s)).sub
    (((hasDerivAt_id k).const_mul (xs.length:ℝ)).mul_const (Real.log s))).sub ((hasDerivAt_logGamma hk).const_mul (xs.length:ℝ))
  exact h.neg.congr_deriv (by ring)

theorem deriv_s (hs : 0 < s) : HasDerivAt (fun s => L xs k s) (-(xs.sum / s ^ 2 - xs.length * k / s)) s := by
  have h := ((((hasDerivAt_inv hs.ne').const_mul xs.sum).const_sub ((k - 1) * (xs.map Real.log).sum)).sub
    ((Real.hasDerivAt_log hs.ne').const_mul (xs.length * k))).sub_const (xs.length * Real.log (Real.Gamma k))
  have := h.neg
  simp only [← div_eq_mul_inv] at this
  exact this.congr_deriv (by field_simp)

/-- per observation -/
noncomputable def N (xs : List ℝ) (k s : ℝ) : ℝ :=
  -(k - 1) * sampleMean (xs.map Real.log) + sampleMean xs / s + k * Real.log s + Real.log (Real.Gamma k)

theorem L_eq (hn : xs ≠ []) : L xs k s = xs.length * N xs k s := by
  have hl := (length_pos hn).ne'
  rw [L, N, sum_eq_mean hn Real.log, show xs.sum = xs.length * sampleMean xs by rw [sampleMean]; field_simp]
  ring

theorem mean_pos (hn : xs ≠ []) (hx : ∀ x ∈ xs, 0 < x) : 0 < sampleMean xs := by
  obtain ⟨y, hy⟩ := List.exists_mem_of_ne_nil _ hn
  have := sampleMean_pos (φ := fun x => x) (fun x h => (hx x h).le) ⟨y, hy, hx y hy⟩
  simpa using this

/-- The mean of the logarithms is at most the logarithm of the mean. -/
theorem log_mean_lt (hx : ∀ x ∈ xs, 0 < x) (hv : ¬ ∃ c, ∀ x ∈ xs, x = c) :
    sampleMean (xs.map Real.log) < Real.log (sampleMean xs) := by
  have hn : xs ≠ [] := by rintro rfl; exact hv ⟨0, by simp⟩
  set m := sampleMean xs with hm
  have hm0 : 0 < m := mean_pos hn hx
  push Not at hv
  obtain ⟨y, hy, hne⟩ := hv m
  have hle : ∀ x ∈ xs, 0 ≤ (Real.log m - 1) + 1 * (1 / m * x + -1 * Real.log x) := fun x h => by
    have := Real.log_le_sub_one_of_pos (div_pos (hx x h) hm0)
    rw [Real.log_div (hx x h).ne' hm0.ne'] at this
    have e : 1 / m * x = x / m := by ring
    rw [e]; linarith
  have hlt : 0 < (Real.log m - 1) + 1 * (1 / m * y + -1 * Real.log y) := by
    have := Real.log_lt_sub_one_of_pos (div_pos (hx y hy) hm0) (by rw [ne_eq, div_eq_one_iff_eq hm0.ne']; exact hne)
    rw [Real.log_div (hx y hy).ne' hm0.ne'] at this
    have e : 1 / m * y = y / m := by ring
    rw [e]; linarith
  have := sampleMean_pos hle ⟨y, hy, hlt⟩
  rw [sampleMean_affine hn, sampleMean_add, sampleMean_mul, sampleMean_mul, List.map_id', ← hm] at this
  have e : 1 / m * m = 1 := by field_simp
  rw [e] at this
  linarith

/-- `log k - psi k` and its derivative -/
noncomputable def D (k : ℝ) : ℝ := Real.log k - psi k

theorem D_deriv (hk : 0 < k) : HasDerivAt D (1 / k - psi1 k) k := by
  rw [one_div]; exact (Real.hasDerivAt_log hk.ne').sub (hasDerivAt_psi' hk)

theorem D'_neg (hk : 0 < k) : 1 / k - psi1 k < 0 := by
  have := psi1_ge hk
  have h2 : 0 < 1 / (2 * k ^ 2) := by positivity
  linarith

theorem D_ge (hk : 0 < k) : 1 / (2 * k) ≤ D k := by have := psi_le hk; rw [D]; linarith

theorem D_strictAnti : StrictAntiOn D (Ioi 0) := by
  refine strictAntiOn_of_deriv_neg (convex_Ioi 0) (fun x hx => (D_deriv hx).continuousAt.continuousWithinAt) fun x hx => ?_
  rw [interior_Ioi] at hx
  rw [(D_deriv hx).deriv]; exact D'_neg hx

theorem D_root {c : ℝ} (hc : 0 < c) : ∃ k, 0 < k ∧ D k = c := by
  have ht : Tendsto (fun n : ℕ => D (1 + n)) atTop (𝓝 0) := by
    have := (tendsto_psi_sub_log one_pos 0 (by norm_num)).neg
    simp only [add_zero, neg_zero] at this
    exact this.congr fun n => by rw [D]; ring
  obtain ⟨n, hn⟩ := (ht.eventually_lt_const hc).exists
  set a := min 1 (1 / (2 * c)) with ha
  have ha0 : 0 < a := lt_min one_pos (by positivity)
  have h1 : c ≤ D a := by
    refine le_trans ?_ (D_ge ha0)
    rw [le_div_iff₀ (by positivity)]
    have : a ≤ 1 / (2 * c) := min_le_right _ _
    rw [le_div_iff₀ (by positivity)] at this
    linarith
  have hab : a ≤ 1 + n := (min_le_left _ _).trans (by have : (0:ℝ) ≤ n := n.cast_nonneg; linarith)
  obtain ⟨k, hk, e⟩ := intermediate_value_Icc' hab
    (fun x hx => (D_deriv (ha0.trans_le hx.1)).continuousAt.continuousWithinAt) ⟨hn.le, h1⟩
  exact ⟨k, ha0.trans_le hk.1, e⟩

/-- For a given shape the best scale is `mean / k`. -/
theorem scale_min (hn : xs ≠ []) (hx : ∀ x ∈ xs, 0 < x) (hk : 0 < k) (hs : 0 < s) : N xs k (sampleMean xs / k) ≤ N xs k s := by
  have hm := mean_pos hn hx
  have h := mul_le_mul_of_nonneg_left (log_add_div_min (div_pos hm hk) hs) hk.le
  have e1 : k * (sampleMean xs / k / s) = sampleMean xs / s := by field_simp
  have e2 : sampleMean xs / (sampleMean xs / k) = k := by field_simp
  rw [N, N, e2]
  rw [mul_add, mul_add, e1] at h
  linarith

/-- The profile likelihood. -/
theorem profile_min (hn : xs ≠ []) (hx : ∀ x ∈ xs, 0 < x) (hk : 0 < k)
    (he : D k = Real.log (sampleMean xs) - sampleMean (xs.map Real.log)) {k' : ℝ} (hk' : 0 < k') :
    N xs k (sampleMean xs / k) ≤ N xs k' (sampleMean xs / k') := by
  have hm := mean_pos hn hx
  set b := sampleMean (xs.map Real.log) with hb
  set m := sampleMean xs with hmm
  have e : ∀ k, 0 < k → N xs k (m / k) = -(k - 1) * b + k + k * Real.log m - k * Real.log k + Real.log (Real.Gamma k) := fun k hk => by
    rw [N, Real.log_div hm.ne' hk.ne', ← hb, ← hmm, show m / (m / k) = k by field_simp]; ring
  rw [e k hk, e k' hk']
  refine min_of_deriv_sign (h := fun k => -(k - 1) * b + k + k * Real.log m - k * Real.log k + Real.log (Real.Gamma k))
    (h' := fun t => (Real.log m - b) - D t) (m := k) (fun t ht => ?_) hk ?_ ?_ hk'
  · have h := ((((((hasDerivAt_id t).sub_const 1).neg.mul_const b).add (hasDerivAt_id t)).add ((hasDerivAt_id t).mul_const (Real.log m))).sub
      ((hasDerivAt_id t).mul (Real.hasDerivAt_log ht.ne'))).add (hasDerivAt_logGamma ht)
    refine h.congr_deriv ?_
    simp only [id, D]; field_simp; ring
  · intro t ht hlt
    have := D_strictAnti.antitoneOn ht hk hlt.le
    linarith
  · intro t hlt
    have := D_strictAnti.antitoneOn hk (hk.trans hlt) hlt.le
    linarith

/-- For a given scale the best shape. -/
theorem shape_min (_hn : xs ≠ []) (hk : 0 < k) (he : psi k = sampleMean (xs.map Real.log) - Real.log s) {k' : ℝ} (hk' : 0 < k') :
    N xs k s ≤ N xs k' s := by
  refine min_of_deriv_sign (h := fun k => N xs k s)
    (h' := fun t => psi t - (sampleMean (xs.map Real.log) - Real.log s)) (m := k) (fun t ht => ?_) hk ?_ ?_ hk'
  · have h := ((((((hasDerivAt_id t).sub_const 1).neg.mul_const (sampleMean (xs.map Real.log))).add_const (sampleMean xs / s))).add
      ((hasDerivAt_id t).mul_const (Real.log s))).add (hasDerivAt_logGamma ht)
    refine h.congr_deriv ?_
    ring
  · intro t ht hlt
    have := psi_mono ht hlt.le
    linarith
  · intro t hlt
    have := psi_mono hk hlt.le
    linarith

theorem newtonStep_eval {c : ℝ} (hk : 0 < k) : newtonStep (fin c) (fin k) = .ok (fin (k - (D k - c) / (1 / k - psi1 k))) := by
  simp only [newtonStep, mp.log_pos hk, ok_bind, mp.psi0_pos hk, psi1_eval hk, one_def, fin_div _ hk.ne', fin_sub,
    fin_div _ (D'_neg hk).ne, pure_eq_ok, D]

/-- Newton's iteration as a sequence -/
noncomputable def seq (c k0 : ℝ) : ℕ → ℝ
  | 0 => k0
  | n + 1 => seq c k0 n - (D (seq c k0 n) - c) / (1 / seq c k0 n - psi1 (seq c k0 n))

theorem seq_shift (c k0 : ℝ) (n : ℕ) : seq c (seq c k0 1) n = seq c k0 (n + 1) := by
  induction n with
  | zero => rfl
  | succ n ih => rw [seq, ih]; rfl

theorem seq_fix {c k0 : ℝ} (h : seq c k0 1 = k0) (n : ℕ) : seq c k0 n = k0 := by
  induction n with
  | zero => rfl
  | succ n ih => rw [← seq_shift, h, ih]

theorem newton_eval {c : ℝ} : ∀ (n : ℕ) {k0 : ℝ}, (∀ n, 0 < seq c k0 n) → newton (fin c) n (fin k0) = .ok (fin (seq c k0 n))
  | 0, _, _ => rfl
  | n + 1, k0, h => by
    have e := newtonStep_eval (c := c) (h 0)
    have e' : newtonStep (fin c) (fin k0) = .ok (fin (seq c k0 1)) := e
    rw [newton, e', ok_bind]
    by_cases h1 : seq c k0 1 = k0
    · rw [if_pos (by simp [h1])]
      rw [h1, seq_fix h1]; rfl
    · rw [if_neg (by simp [h1]), newton_eval n (k0 := seq c k0 1) (fun n => by rw [seq_shift]; exact h _), seq_shift]

/-- The starting value. -/
noncomputable def start (c : ℝ) : ℝ := (3 - c + √((c - 3) ^ 2 + 24 * c)) / (12 * c)

theorem start_pos {c : ℝ} (hc : 0 < c) : 0 < start c ∧ start c < 1 / c := by
  have h0 : 0 ≤ (c - 3) ^ 2 + 24 * c := by positivity
  have h1 : |c - 3| < √((c - 3) ^ 2 + 24 * c) := by
    rw [← Real.sqrt_sq_eq_abs]; exact Real.sqrt_lt_sqrt (sq_nonneg _) (by linarith)
  have h2 := le_abs_self (c - 3)
  have h3 : √((c - 3) ^ 2 + 24 * c) < 9 + c := by
    rw [Real.sqrt_lt' (by linarith)]; nlinarith
  refine ⟨div_pos (by linarith) (by positivity), ?_⟩
  rw [start, div_lt_div_iff₀ (by positivity) hc]
  nlinarith

theorem seq_tendsto {c r : ℝ} (hc : 0 < c) (hr : 0 < r) (he : D r = c) :
    (∀ n, 0 < seq c (start c) n) ∧ Tendsto (seq c (start c)) atTop (𝓝 r) := by
  obtain ⟨h0, h1⟩ := start_pos hc
  refine newton_tendsto (f := fun k => D k - c) (f' := fun k => 1 / k - psi1 k) (fun x hx => (D_deriv hx).sub_const c)
    (fun x y hx hxy => by have := psi1_sub_inv_anti hx hxy; linarith) (fun x hx => D'_neg hx) hr (by rw [he, sub_self]) h0 ?_ fun n => rfl
  set k0 := start c
  show 0 < k0 - (D k0 - c) / (1 / k0 - psi1 k0)
  have h2 := D'_neg h0
  rw [sub_pos, div_lt_iff_of_neg h2, mul_sub, mul_one_div_cancel h0.ne']
  have h3 := mul_le_mul_of_nonneg_left (psi1_ge h0) h0.le
  have h4 : k0 * (1 / k0 + 1 / (2 * k0 ^ 2)) = 1 + 1 / (2 * k0) := by field_simp
  have h5 := D_ge h0
  have h6 : c < 1 / k0 := by rw [lt_div_iff₀ h0]; rw [lt_div_iff₀ hc] at h1; linarith
  have h7 : 1 / k0 = 1 / (2 * k0) + 1 / (2 * k0) := by field_simp; norm_num
  linarith

theorem mleK_eval {m b : ℝ} (hm : 0 < m) (hc : 0 < Real.log m - b) (n : ℕ) :
    mleK n (fin m) (fin b) = .ok (fin (seq (Real.log m - b) (start (Real.log m - b)) n)) := by
  obtain ⟨r, hr, he⟩ := D_root hc
  set c := Real.log m - b with hcd
  have h0 : 0 ≤ (c - 3) ^ 2 + 24 * c := by positivity
  simp only [mleK, mp.log_pos hm, ok_bind, fin_sub, ofNat_def, mp.ipow_fin, fin_mul, fin_add, ← hcd, mp.sqrt_nonneg h0,
    fin_div _ (show 12 * c ≠ 0 by positivity)]
  exact newton_eval n (seq_tendsto hc hr he).1

theorem means (hn : xs ≠ []) (hx : ∀ x ∈ xs, 0 < x) : (mp.fsum (xs.map fin) /. stats.len (xs.map fin) = .ok (fin (sampleMean xs))) ∧
    (mp.fsum ((xs.map Real.log).map fin) /. stats.len (xs.map fin) = .ok (fin (sampleMean (xs.map Real.log)))) := by
  have hl := (length_pos hn).ne'
  simp only [mp.fsum_fin, len_fin, fin_div _ hl, sampleMean, List.length_map, true_and, and_self]

end Mpsci.gamma
