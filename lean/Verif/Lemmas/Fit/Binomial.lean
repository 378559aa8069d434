import Verif.Lemmas.Fit.Counts
import Verif.Props.Disc.Binomial
import Verif.Spec.RootFinder

/-! The likelihood of the binomial distribution. -/

namespace Mpsci.binomial

open Classical Num Spec common

variable {p : ℝ} {n : ℕ} {ks : List ℤ} {c : Option (List ℕ)}

noncomputable def l (n : ℕ) (p : ℝ) (k : ℤ) : ℝ := Real.log (B n p k.toNat)

theorem logpmf_l (h0 : 0 < p) (h1 : p < 1) {k : ℤ} (hk : 0 ≤ k ∧ k ≤ n) : logpmf k n (fin p) = .ok (fin (l n p k)) := by
  obtain ⟨j, rfl⟩ := Int.eq_ofNat_of_zero_le hk.1
  exact logpmf_mid (by exact_mod_cast hk.2) h0 h1

theorem bounds (hk : ∀ k ∈ ks, 0 ≤ k ∧ k ≤ n) :
    validateXBounds (ints ks) (some (fin 0)) (some (ofInt n)) false false = .ok (ints ks) := by
  rw [ints_eq]
  refine validateXBounds_ok ?_ ?_
  · rw [badLow_weak]; push Not
    simp only [List.mem_map]; rintro _ ⟨k, hm, rfl⟩
    exact_mod_cast (hk k hm).1
  · rw [ofInt_natCast, badHigh_weak]; push Not
    simp only [List.mem_map]; rintro _ ⟨k, hm, rfl⟩
    exact_mod_cast (hk k hm).2

theorem allInt (ks : List ℤ) : ∀ t ∈ ints ks, mp.isint t := by
  simp only [ints, List.mem_map]
  rintro _ ⟨k, hm, rfl⟩
  exact ⟨k, rfl⟩

theorem nll_eval (h0 : 0 < p) (h1 : p < 1) (hk : ∀ k ∈ ks, 0 ≤ k ∧ k ≤ n) (hc : Matching ks c) :
    nll (ints ks) n (fin p) (counts c) = .ok (fin (-((meant ks c).map (l n p)).sum)) := by
  have h2 := nllCounts_meant (lp := (logpmf · n (fin p))) (fun k hm => logpmf_l h0 h1 (hk k hm)) hc
  simp only [nll, validate_ok n h0.le h1.le, ok_bind, zero_def, bounds hk, if_neg (not_not.2 (allInt ks))]
  exact h2

theorem nll_small (h0 : 0 ≤ p) (h1 : p ≤ 1) (h : ∃ k ∈ ks, ¬ (0 ≤ k ∧ k ≤ n)) (c : Option (List Num)) :
    nll (ints ks) n (fin p) c = .error .valueError := by
  have hb : validateXBounds (ints ks) (some (fin 0)) (some (ofInt n)) false false = .error .valueError := by
    rw [ints_eq, ofInt_natCast]
    obtain ⟨k, hm, hk⟩ := h
    by_cases h2 : badLow ((ks.map fun k : ℤ => (k:ℝ)).map fin) (some (fin 0)) false
    · exact validateXBounds_low h2
    · refine validateXBounds_high (badHigh_weak.2 ⟨k, List.mem_map_of_mem hm, ?_⟩)
      by_contra h3
      rw [badLow_weak] at h2
      push Not at h2 h3
      have := h2 k (List.mem_map_of_mem hm)
      exact hk ⟨by exact_mod_cast this, by exact_mod_cast h3⟩
  simp only [nll, validate_ok n h0 h1, ok_bind, zero_def, hb]
  rfl

/-- The log-likelihood of one value for real `t` in place of `n`. -/
noncomputable def Λ (p : ℝ) (k : ℤ) (t : ℝ) : ℝ := Real.log (Real.Gamma (t + 1)) - Real.log (Real.Gamma (t - k + 1)) -
  Real.log (Real.Gamma (k + 1)) + k * Real.log p + (t - k) * Real.log (1 - p)
noncomputable def lam' (p : ℝ) (k : ℤ) (t : ℝ) : ℝ := psi (t + 1) - psi (t - k + 1) + Real.log (1 - p)

theorem l_eq (h0 : 0 < p) (h1 : p < 1) {k : ℤ} (hk : 0 ≤ k ∧ k ≤ n) : l n p k = Λ p k n := by
  obtain ⟨j, rfl⟩ := Int.eq_ofNat_of_zero_le hk.1
  have hj : j ≤ n := by exact_mod_cast hk.2
  have h2 : (0:ℝ) < 1 - p := by linarith
  have hb : (n.choose j : ℝ) = Real.Gamma (n + 1) / (Real.Gamma (j + 1) * Real.Gamma ((n:ℝ) - j + 1)) := by
    rw [Real.Gamma_nat_eq_factorial, Real.Gamma_nat_eq_factorial, ← Nat.cast_sub hj, Real.Gamma_nat_eq_factorial, Nat.choose_eq_factorial_div_factorial hj,
      Nat.cast_div (Nat.factorial_mul_factorial_dvd_factorial hj) (by positivity)]
    push_cast; rfl
  have g1 : 0 < Real.Gamma ((n:ℝ) + 1) := Real.Gamma_pos_of_pos (by positivity)
  have g2 : 0 < Real.Gamma ((j:ℝ) + 1) := Real.Gamma_pos_of_pos (by positivity)
  have g3 : 0 < Real.Gamma ((n:ℝ) - j + 1) := Real.Gamma_pos_of_pos (by
    have : (j:ℝ) ≤ n := by exact_mod_cast hj
    linarith)
  simp only [l, Λ, B, Int.toNat_natCast, hb, Int.cast_natCast]
  rw [Real.log_mul (by positivity) (by positivity), Real.log_mul (by positivity) (by positivity), Real.log_div (by positivity) (by positivity),
    Real.log_mul g2.ne' g3.ne', Real.log_pow, Real.log_pow, Nat.cast_sub hj]
  ring

theorem hasDerivAt_Λ {k : ℤ} {t : ℝ} (hk : 0 ≤ k) (ht : (k:ℝ) - 1 < t) : HasDerivAt (Λ p k) (lam' p k t) t := by
  have h3 : (0:ℝ) ≤ k := by exact_mod_cast hk
  have h1 : HasDerivAt (fun t => Real.log (Real.Gamma (t + 1))) (psi (t + 1)) t :=
    (hasDerivAt_logGamma (by linarith : 0 < t + 1)).comp_add_const t 1
  have h2 : HasDerivAt (fun t => Real.log (Real.Gamma (t - k + 1))) (psi (t - k + 1)) t := by
    have := (hasDerivAt_logGamma (by linarith : 0 < t + (1 - (k:ℝ)))).comp_add_const t (1 - (k:ℝ))
    have e : ∀ t : ℝ, t + (1 - (k:ℝ)) = t - k + 1 := fun t => by ring
    simpa only [e] using this
  have h4 := ((((h1.sub h2).sub_const (Real.log (Real.Gamma (k + 1)))).add_const (k * Real.log p)).add
    (((hasDerivAt_id t).sub_const (k:ℝ)).mul_const (Real.log (1 - p))))
  refine HasDerivAt.congr_deriv (f := Λ p k) h4 ?_
  rw [lam', one_mul]

theorem lam'_anti {k : ℤ} {s t : ℝ} (hk : 0 ≤ k) (hs : (k:ℝ) - 1 < s) (hst : s ≤ t) : lam' p k t ≤ lam' p k s := by
  obtain ⟨j, rfl⟩ := Int.eq_ofNat_of_zero_le hk
  rw [Int.cast_natCast] at hs
  have := psi_diff_anti (x := s - j + 1) (y := t - j + 1) (by linarith) (by linarith) j
  rw [show s - (j:ℝ) + 1 + j = s + 1 by ring, show t - (j:ℝ) + 1 + j = t + 1 by ring] at this
  simp only [lam', Int.cast_natCast]; linarith

/-- The log-likelihood and its derivative. -/
noncomputable def LL (p : ℝ) (xs : List ℤ) (t : ℝ) : ℝ := (xs.map fun k => Λ p k t).sum
noncomputable def G (p : ℝ) (xs : List ℤ) (t : ℝ) : ℝ := (xs.map fun k => lam' p k t).sum

theorem hasDerivAt_LL {xs : List ℤ} {t : ℝ} (h : ∀ k ∈ xs, 0 ≤ k ∧ (k:ℝ) - 1 < t) : HasDerivAt (LL p xs) (G p xs t) t := by
  induction xs with
  | nil => exact hasDerivAt_const t (0:ℝ)
  | cons k xs ih =>
    exact (hasDerivAt_Λ (h k (by simp)).1 (h k (by simp)).2).add (ih fun k hk => h k (by simp [hk]))

theorem G_anti {xs : List ℤ} {s t : ℝ} (h : ∀ k ∈ xs, 0 ≤ k ∧ (k:ℝ) - 1 < s) (hst : s ≤ t) : G p xs t ≤ G p xs s :=
  List.sum_le_sum fun k hk => lam'_anti (h k hk).1 (h k hk).2 hst

/-- Where the derivative is at most 0, the log-likelihood decreases from there on. -/
theorem LL_le_right {xs : List ℤ} {s t u : ℝ} (h : ∀ k ∈ xs, 0 ≤ k ∧ (k:ℝ) - 1 < s) (hG : G p xs s ≤ 0) (hst : s ≤ t) (htu : t ≤ u) :
    LL p xs u ≤ LL p xs t := by
  have hd : ∀ r, s ≤ r → HasDerivAt (LL p xs) (G p xs r) r := fun r hr => hasDerivAt_LL fun k hk => ⟨(h k hk).1, (h k hk).2.trans_le hr⟩
  refine antitoneOn_of_deriv_nonpos (convex_Ici s) (fun r hr => (hd r hr).continuousAt.continuousWithinAt) (fun r hr => ?_) (fun r hr => ?_)
    (Set.mem_Ici.2 hst) (Set.mem_Ici.2 (hst.trans htu)) htu
  · rw [interior_Ici, Set.mem_Ioi] at hr
    exact (hd r hr.le).differentiableAt.differentiableWithinAt
  · rw [interior_Ici, Set.mem_Ioi] at hr
    rw [(hd r hr.le).deriv]
    exact (G_anti h hr.le).trans hG

/-- Where the derivative is at least 0, the log-likelihood increases up to there. -/
theorem LL_le_left {xs : List ℤ} {s t u : ℝ} (h : ∀ k ∈ xs, 0 ≤ k ∧ (k:ℝ) - 1 < u) (hG : 0 ≤ G p xs s) (hut : u ≤ t) (hts : t ≤ s) :
    LL p xs u ≤ LL p xs t := by
  have hd : ∀ r, u ≤ r → HasDerivAt (LL p xs) (G p xs r) r := fun r hr => hasDerivAt_LL fun k hk => ⟨(h k hk).1, (h k hk).2.trans_le hr⟩
  refine monotoneOn_of_deriv_nonneg (convex_Icc u s) (fun r hr => (hd r hr.1).continuousAt.continuousWithinAt) (fun r hr => ?_) (fun r hr => ?_)
    (Set.mem_Icc.2 ⟨le_rfl, hut.trans hts⟩) (Set.mem_Icc.2 ⟨hut, hts⟩) hut
  · rw [interior_Icc] at hr
    exact (hd r hr.1.le).differentiableAt.differentiableWithinAt
  · rw [interior_Icc] at hr
    rw [(hd r hr.1.le).deriv]
    exact hG.trans (G_anti (fun k hk => ⟨(h k hk).1, (h k hk).2.trans hr.1⟩) hr.2.le)

theorem nll_LL (h0 : 0 < p) (h1 : p < 1) (hk : ∀ k ∈ ks, 0 ≤ k ∧ k ≤ n) (hc : Matching ks c) :
    nll (ints ks) n (fin p) (counts c) = .ok (fin (-LL p (meant ks c) n)) := by
  rw [nll_eval h0 h1 hk hc, LL]
  congr 4
  exact List.map_congr_left fun k hm => l_eq h0 h1 (hk k (meant_mem hm))

/-- The largest value, as Python's `max` finds it. -/
theorem max_ints (hn : ks ≠ []) : ∃ j ∈ ks, (∀ k ∈ ks, k ≤ j) ∧ py.max (ints ks) = .ok (ofInt j) := by
  obtain ⟨v, h1, h2, h3⟩ := py.max_fin (l := ks.map fun k : ℤ => (k:ℝ)) (by simpa using hn)
  obtain ⟨j, hj, rfl⟩ := List.mem_map.1 h1
  refine ⟨j, hj, fun k hk => ?_, ?_⟩
  · have := h2 k (List.mem_map_of_mem hk)
    exact_mod_cast this
  · rw [ints_eq, h3, ofInt_def]

theorem mle_unfold {findroot : (Num → M Num) → Num → M Num} (hk : ∀ k ∈ ks, 0 ≤ k) (hc : Matching ks c) {j : ℤ}
    (hj : py.max (ints ks) = .ok (ofInt j)) (pn pp : Param) : mle findroot (ints ks) (counts c) pn pp = match pn with
  | .fixed n => mleFixedN (ints ks) (counts c) (ofInt j) n pp
  | n =>
    match pp with
    | .fixed p => mleFixedP findroot (ints ks) (counts c) (ofInt j) n p
    | p => mleFree findroot (ints ks) (counts c) (ofInt j) n p := by
  have h1 : (ints ks).mapM (fun xi => do return decide (ofInt (← py.int xi) =. xi)) = .ok (ks.map fun _ => true) := by
    rw [ints, List.mapM_map]
    refine mapM_ok _ fun k _ => ?_
    show (py.int (ofInt k) >>= fun a => pure (decide (ofInt a =. ofInt k))) = _
    rw [int_ofInt, ok_bind, pure_eq_ok]; simp [ofInt_def]
  have h2 : validateXBounds (ints ks) (some (fin 0)) (some pinf) false false = .ok (ints ks) := by
    rw [ints_eq]
    refine validateXBounds_ok ?_ (by simp only [badHigh_pinf, not_false_eq_true])
    rw [badLow_weak]; push Not
    simp only [List.mem_map]; rintro _ ⟨k, hm, rfl⟩
    exact_mod_cast hk k hm
  have h3 : ((ks.map fun _ => true).all id) = true := by simp
  rw [mle]
  simp only [h1, ok_bind, h3, not_true, if_false, zero_def, h2, hj, validateCounts_match hc]
  rfl

end Mpsci.binomial
