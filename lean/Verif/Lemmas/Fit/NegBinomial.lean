import Verif.Lemmas.Fit.Counts
import Verif.Model.Fit.NegBinomial
import Verif.Props.Disc.NegBinomial
import Verif.Spec.RootFinder

/-! The likelihood of the negative binomial distribution. -/

namespace Mpsci.negative_binomial

open Classical Num Spec common

variable {r p : ℝ} {ks : List ℤ} {c : Option (List ℕ)}

noncomputable def l (r p : ℝ) (k : ℤ) : ℝ := Real.log (N r p k.toNat)

theorem logpmf_l (hr : 1 ≤ r) (h0 : 0 < p) (h1 : p < 1) {k : ℤ} (hk : 0 ≤ k) : logpmf k (fin r) (fin p) = .ok (fin (l r p k)) := by
  obtain ⟨j, rfl⟩ := Int.eq_ofNat_of_zero_le hk
  rw [logpmf_eval hr h0.le h1, if_neg (N_pos (by linarith) h0 h1 j).ne', l, Int.toNat_natCast]

theorem validateX_ok (hk : ∀ k ∈ ks, 0 ≤ k) : validateX (ints ks) = .ok (ints ks) := by
  rw [validateX, ints, List.mapM_map]
  refine mapM_ok _ fun k hm => ?_
  have h1 : ¬ ofInt k < 0 := by rw [ofInt_def, zero_def, fin_lt, not_lt]; exact_mod_cast hk k hm
  have h2 : ofInt k =. ofInt k := by simp [ofInt_def]
  simp only [Function.comp, h1, if_false, int_ofInt, ok_bind, h2, not_true, pure_eq_ok]

theorem validateX_bad {xs : List ℝ} (h : ∃ x ∈ xs, ∀ k : ℕ, x ≠ k) : validateX (xs.map fin) = .error .valueError := by
  rw [validateX, List.mapM_map]
  have e : ∀ x : ℝ, (∃ k : ℕ, x = k) ∧ (do
        if fin x < 0 then throw .valueError
        if ¬ fin x =. ofInt (← py.int (fin x)) then throw .valueError
        return fin x : M Num) = .ok (fin x) ∨ (do
        if fin x < 0 then throw .valueError
        if ¬ fin x =. ofInt (← py.int (fin x)) then throw .valueError
        return fin x : M Num) = .error .valueError := fun x => by
    by_cases h1 : x < 0
    · right; simp [h1]
    · by_cases h2 : x = (⌊x⌋:ℤ)
      · left
        refine ⟨⟨⌊x⌋.toNat, ?_⟩, ?_⟩
        · have : 0 ≤ ⌊x⌋ := Int.floor_nonneg.2 (not_lt.1 h1)
          have h3 : ((⌊x⌋.toNat : ℤ) : ℝ) = (⌊x⌋ : ℝ) := by rw [Int.toNat_of_nonneg this]
          rw [Int.cast_natCast] at h3
          rw [h3]; exact h2
        · simp only [zero_def, fin_lt, h1, if_false, py.int, if_pos (not_lt.1 h1), ok_bind, ofInt_def, fin_eq, ← h2, not_true, pure_eq_ok]
      · right
        simp only [zero_def, fin_lt, h1, if_false, py.int, if_pos (not_lt.1 h1), ok_bind, ofInt_def, fin_eq, h2, not_false_eq_true, if_true]
        rfl
  obtain ⟨x, hx, hn⟩ := h
  induction xs with
  | nil => cases hx
  | cons a xs ih =>
    rw [List.mapM_cons]
    rcases e a with ⟨⟨k, hk⟩, h1⟩ | h1
    · simp only [Function.comp]
      rw [h1]
      rcases List.mem_cons.1 hx with rfl | hx
      · exact absurd hk (hn k)
      · rw [ok_bind, ih hx]; rfl
    · simp only [Function.comp]
      rw [h1]; rfl

theorem nll_eval (hr : 1 ≤ r) (h0 : 0 < p) (h1 : p < 1) (hk : ∀ k ∈ ks, 0 ≤ k) (hc : Matching ks c) :
    nll (ints ks) (fin r) (fin p) (counts c) = .ok (fin (-((meant ks c).map (l r p)).sum)) := by
  have h2 := nllCounts_meant (lp := (logpmf · (fin r) (fin p))) (fun k hm => logpmf_l hr h0 h1 (hk k hm)) hc
  simp only [nll, validate_ok (by linarith : 0 < r) h0.le h1.le, ok_bind, validateX_ok hk]
  exact h2

/-- The log-likelihood of one value as a function of `r`, and its derivative. -/
noncomputable def Λ (p : ℝ) (k : ℤ) (t : ℝ) : ℝ := Real.log (Real.Gamma (k + t)) - Real.log (Real.Gamma t) -
  Real.log k.toNat.factorial + k * Real.log p + t * Real.log (1 - p)
noncomputable def lam' (p : ℝ) (k : ℤ) (t : ℝ) : ℝ := psi (k + t) - psi t + Real.log (1 - p)

theorem l_eq (hr : 0 < r) (h0 : 0 < p) (h1 : p < 1) {k : ℤ} (hk : 0 ≤ k) : l r p k = Λ p k r := by
  obtain ⟨j, rfl⟩ := Int.eq_ofNat_of_zero_le hk
  have h2 : (0:ℝ) < 1 - p := by linarith
  have hG := Real.Gamma_pos_of_pos hr
  have hG2 := Real.Gamma_pos_of_pos (show 0 < (j:ℝ) + r by positivity)
  have hf : (0:ℝ) < j.factorial := by exact_mod_cast j.factorial_pos
  simp only [l, Λ, N, Int.toNat_natCast, Int.cast_natCast]
  rw [Real.log_mul (by positivity) (by positivity), Real.log_mul (by positivity) (by positivity), Real.log_div hG2.ne' (by positivity),
    Real.log_mul hf.ne' hG.ne', Real.log_pow, Real.log_rpow h2]
  ring

theorem hasDerivAt_Λ {k : ℤ} {t : ℝ} (hk : 0 ≤ k) (ht : 0 < t) : HasDerivAt (Λ p k) (lam' p k t) t := by
  have h3 : (0:ℝ) ≤ k := by exact_mod_cast hk
  have h1 : HasDerivAt (fun t => Real.log (Real.Gamma (k + t))) (psi (k + t)) t :=
    (hasDerivAt_logGamma (by linarith : 0 < (k:ℝ) + t)).comp_const_add (k:ℝ) t
  have h4 := ((((h1.sub (hasDerivAt_logGamma ht)).sub_const (Real.log k.toNat.factorial)).add_const (k * Real.log p)).add
    ((hasDerivAt_id t).mul_const (Real.log (1 - p))))
  refine HasDerivAt.congr_deriv (f := Λ p k) h4 ?_
  rw [lam', one_mul]

theorem lam'_anti {k : ℤ} {s t : ℝ} (hk : 0 ≤ k) (hs : 0 < s) (hst : s ≤ t) : lam' p k t ≤ lam' p k s := by
  obtain ⟨j, rfl⟩ := Int.eq_ofNat_of_zero_le hk
  have := psi_diff_anti hs hst j
  simp only [lam', Int.cast_natCast, add_comm (j:ℝ)]; linarith

/-- The log-likelihood and its derivative. -/
noncomputable def LL (p : ℝ) (xs : List ℤ) (t : ℝ) : ℝ := (xs.map fun k => Λ p k t).sum
noncomputable def G (p : ℝ) (xs : List ℤ) (t : ℝ) : ℝ := (xs.map fun k => lam' p k t).sum

theorem hasDerivAt_LL {xs : List ℤ} {t : ℝ} (h : ∀ k ∈ xs, 0 ≤ k) (ht : 0 < t) : HasDerivAt (LL p xs) (G p xs t) t := by
  induction xs with
  | nil => exact hasDerivAt_const t (0:ℝ)
  | cons k xs ih => exact (hasDerivAt_Λ (h k (by simp)) ht).add (ih fun k hk => h k (by simp [hk]))

theorem G_anti {xs : List ℤ} {s t : ℝ} (h : ∀ k ∈ xs, 0 ≤ k) (hs : 0 < s) (hst : s ≤ t) : G p xs t ≤ G p xs s :=
  List.sum_le_sum fun k hk => lam'_anti (h k hk) hs hst

theorem LL_le_right {xs : List ℤ} {s t u : ℝ} (h : ∀ k ∈ xs, 0 ≤ k) (hs : 0 < s) (hG : G p xs s ≤ 0) (hst : s ≤ t) (htu : t ≤ u) :
    LL p xs u ≤ LL p xs t := by
  have hd : ∀ r, s ≤ r → HasDerivAt (LL p xs) (G p xs r) r := fun r hr => hasDerivAt_LL h (hs.trans_le hr)
  refine antitoneOn_of_deriv_nonpos (convex_Ici s) (fun r hr => (hd r hr).continuousAt.continuousWithinAt) (fun r hr => ?_) (fun r hr => ?_)
    (Set.mem_Ici.2 hst) (Set.mem_Ici.2 (hst.trans htu)) htu
  · rw [interior_Ici, Set.mem_Ioi] at hr
    exact (hd r hr.le).differentiableAt.differentiableWithinAt
  · rw [interior_Ici, Set.mem_Ioi] at hr
    rw [(hd r hr.le).deriv]
    exact (G_anti h hs hr.le).trans hG

theorem LL_le_left {xs : List ℤ} {s t u : ℝ} (h : ∀ k ∈ xs, 0 ≤ k) (hu : 0 < u) (hG : 0 ≤ G p xs s) (hut : u ≤ t) (hts : t ≤ s) :
    LL p xs u ≤ LL p xs t := by
  have hd : ∀ r, u ≤ r → HasDerivAt (LL p xs) (G p xs r) r := fun r hr => hasDerivAt_LL h (hu.trans_le hr)
  refine monotoneOn_of_deriv_nonneg (convex_Icc u s) (fun r hr => (hd r hr.1).continuousAt.continuousWithinAt) (fun r hr => ?_) (fun r hr => ?_)
    (Set.mem_Icc.2 ⟨le_rfl, hut.trans hts⟩) (Set.mem_Icc.2 ⟨hut, hts⟩) hut
  · rw [interior_Icc] at hr
    exact (hd r hr.1.le).differentiableAt.differentiableWithinAt
  · rw [interior_Icc] at hr
    rw [(hd r hr.1.le).deriv]
    exact hG.trans (G_anti h (hu.trans hr.1) hr.2.le)

theorem nll_LL (hr : 1 ≤ r) (h0 : 0 < p) (h1 : p < 1) (hk : ∀ k ∈ ks, 0 ≤ k) (hc : Matching ks c) :
    nll (ints ks) (fin r) (fin p) (counts c) = .ok (fin (-LL p (meant ks c) r)) := by
  rw [nll_eval hr h0 h1 hk hc, LL]
  congr 4
  exact List.map_congr_left fun k hm => l_eq (by linarith) h0 h1 (hk k (meant_mem hm))

/-- The mean of the digamma differences. -/
theorem G_mean (p : ℝ) {xs : List ℤ} (hn : xs ≠ []) (t : ℝ) : sampleMean (xs.map fun k : ℤ => psi (k + t)) - psi t + Real.log (1 - p) =
    G p xs t / xs.length := by
  have hl : (0:ℝ) < xs.length := by exact_mod_cast List.length_pos_iff.2 hn
  have e5 : G p xs t = (xs.map fun k : ℤ => psi (k + t)).sum + xs.length * (Real.log (1 - p) - psi t) := by
    have e6 : ∀ k : ℤ, lam' p k t = psi (k + t) + (Real.log (1 - p) - psi t) := fun k => by rw [lam']; ring
    simp only [G, e6]
    rw [List.sum_map_add]; simp
  rw [sampleMean, List.length_map, e5]; field_simp; ring

theorem digammas {t : ℝ} (ht : 0 < t) (hk : ∀ k ∈ ks, 0 ≤ k) :
    (ints ks).mapM (fun xi => mp.digamma (xi + fin t)) = .ok (ks.map fun k : ℤ => fin (psi (k + t))) := by
  rw [ints, List.mapM_map]
  refine mapM_ok _ fun k hm => ?_
  have : (0:ℝ) ≤ k := by exact_mod_cast hk k hm
  show mp.digamma (ofInt k + fin t) = _
  rw [ofInt_def, fin_add, mp.digamma_pos (by linarith)]

theorem eqnFixed_eval {t : ℝ} (ht : 0 < t) (h1 : p < 1) (hk : ∀ k ∈ ks, 0 ≤ k) (hc : Matching ks c) (hn : meant ks c ≠ []) :
    eqnFixed (ints ks) (counts c) (fin p) (fin t) = .ok (fin (G p (meant ks c) t / (meant ks c).length)) := by
  have e3 := mean_meant hc hn fun x => psi (x + t)
  simp only [eqnFixed, digammas ht hk, ok_bind, e3, mp.digamma_pos ht, neg_fin, mp.log1p_pos (show (-1:ℝ) < -p by linarith), pure_eq_ok,
    fin_sub, fin_add]
  rw [← G_mean p hn, sub_eq_add_neg 1 p]

theorem eqnFree_eval {m t : ℝ} (ht : 0 < t) (hm : 0 ≤ m) (hk : ∀ k ∈ ks, 0 ≤ k) (hc : Matching ks c) (hn : meant ks c ≠ []) :
    eqnFree (ints ks) (counts c) (fin m) (fin t) = .ok (fin (G (m / (t + m)) (meant ks c) t / (meant ks c).length)) := by
  have h2 : 0 < t + m := by linarith
  have h1 : m / (t + m) < 1 := (div_lt_one h2).2 (by linarith)
  have := eqnFixed_eval ht h1 hk hc hn
  simp only [eqnFixed] at this
  simp only [eqnFree, fin_add, fin_div _ h2.ne', ok_bind]
  exact this

theorem mean_nonneg (hk : ∀ k ∈ ks, 0 ≤ k) : 0 ≤ sampleMean ((meant ks c).map fun k : ℤ => (k:ℝ)) := by
  refine div_nonneg (List.sum_nonneg fun x hx => ?_) (Nat.cast_nonneg _)
  obtain ⟨k, hm, rfl⟩ := List.mem_map.1 hx
  exact_mod_cast hk k (meant_mem hm)

/-- The log-likelihood as a function of `p`. -/
theorem LL_p {xs : List ℤ} (hn : xs ≠ []) (r p : ℝ) : LL p xs r =
    (xs.map fun k : ℤ => Real.log (Real.Gamma (k + r)) - Real.log (Real.Gamma r) - Real.log k.toNat.factorial).sum +
    xs.length * (sampleMean (xs.map fun k : ℤ => (k:ℝ)) * Real.log p + r * Real.log (1 - p)) := by
  have hl : (0:ℝ) < xs.length := by exact_mod_cast List.length_pos_iff.2 hn
  have e : ∀ k : ℤ, Λ p k r = (Real.log (Real.Gamma (k + r)) - Real.log (Real.Gamma r) - Real.log k.toNat.factorial) +
      ((k:ℝ) * Real.log p + r * Real.log (1 - p)) := fun k => by rw [Λ]; ring
  simp only [LL, e]
  rw [List.sum_map_add, List.sum_map_add, sampleMean, List.length_map, List.sum_map_mul_right]
  simp
  field_simp

end Mpsci.negative_binomial
