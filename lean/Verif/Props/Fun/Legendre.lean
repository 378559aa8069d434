import Verif.Lemmas.Fun.Legendre
import Verif.Spec.SpecialFun
import Verif.Spec.RootFinder
import Verif.Lemmas.Fit.Basic

/-! Gauss-Legendre rules. -/

namespace Mpsci.fun_

open Classical Num Polynomial Spec legD

variable {findroot : (Num → M Num) → Num → M Num}

/-- C60 Up to `n = 3`, where nodes and weights are written in closed form. -/
theorem rootsLegendre_closed (n : ℕ) (h1 : 1 ≤ n) (h3 : n ≤ 3) :
    ∃ xs ws : List ℝ, rootsLegendre findroot n = .ok (xs.map fin, ws.map fin) ∧ Spec.IsGaussLegendre n xs ws := by
  have key : ∀ (N : ℕ) (p : Polynomial ℝ), p.natDegree < N → ∫ x in (-1:ℝ)..1, p.eval x =
      ∑ i ∈ Finset.range N, p.coeff i * ((1 - (-1) ^ (i + 1)) / (i + 1)) := fun N p hp => by
    simp only [Polynomial.eval_eq_sum_range' hp]
    rw [intervalIntegral.integral_finset_sum fun i _ => (by fun_prop : Continuous fun x : ℝ => p.coeff i * x ^ i).intervalIntegrable _ _]
    refine Finset.sum_congr rfl fun i _ => ?_
    rw [intervalIntegral.integral_const_mul, integral_pow, one_pow]
  interval_cases n
  · refine ⟨[0], [2], rfl, rfl, rfl, by simp, by simp, by simp, fun p hp => ?_⟩
    rw [key 2 p (by omega)]
    simp [Polynomial.eval_eq_sum_range' (show p.natDegree < 2 by omega), Finset.sum_range_succ]
    ring
  · have hs : 0 < √3 := by positivity
    have hs2 : √3 * √3 = 3 := Real.mul_self_sqrt (by norm_num)
    have hx : (1 / √3) ^ 2 = 1 / 3 := by rw [div_pow, Real.sq_sqrt (by norm_num), one_pow]
    have hx0 : 0 < 1 / √3 := by positivity
    have hx1 : 1 / √3 < 1 := by nlinarith
    refine ⟨[-(1 / √3), 1 / √3], [1, 1], ?_, rfl, rfl, by simp, ?_, by simp, fun p hp => ?_⟩
    · simp [rootsLegendre, ofNat_def, one_def, mp.sqrt_nonneg (show (0:ℝ) ≤ 3 by norm_num), fin_div _ hs.ne', -one_div]
    · intro x hx; simp only [List.mem_cons, List.not_mem_nil, or_false] at hx
      rcases hx with rfl | rfl <;> constructor <;> linarith
    · rw [key 4 p (by omega)]
      generalize 1 / √3 = y at *
      simp [Polynomial.eval_eq_sum_range' (show p.natDegree < 4 by omega), Finset.sum_range_succ]
      linear_combination 2 * p.coeff 2 * hx
  · have hx : (√0.6) ^ 2 = 0.6 := Real.sq_sqrt (by norm_num)
    have hx0 : 0 < √0.6 := Real.sqrt_pos.2 (by norm_num)
    have hx1 : √0.6 < 1 := by nlinarith
    refine ⟨[-√0.6, 0, √0.6], [5 / 9, 8 / 9, 5 / 9], ?_, rfl, rfl, ?_, ?_, ?_, fun p hp => ?_⟩
    · simp only [rootsLegendre, mp.sqrt_nonneg (show (0:ℝ) ≤ 0.6 by norm_num)]
      rfl
    · simp only [List.pairwise_cons, List.mem_cons, List.not_mem_nil, or_false, forall_eq_or_imp, forall_eq, List.Pairwise.nil]
      refine ⟨⟨by linarith, by linarith⟩, hx0, by simp, trivial⟩
    · intro x hx; simp only [List.mem_cons, List.not_mem_nil, or_false] at hx
      rcases hx with rfl | rfl | rfl <;> constructor <;> linarith
    · intro x hx; simp only [List.mem_cons, List.not_mem_nil, or_false] at hx
      rcases hx with rfl | rfl | rfl <;> norm_num
    · rw [key 6 p (by omega)]
      generalize √0.6 = y at *
      simp [Polynomial.eval_eq_sum_range' (show p.natDegree < 6 by omega), Finset.sum_range_succ]
      have hx4 : y ^ 4 = 0.36 := by rw [show y ^ 4 = (y ^ 2) ^ 2 by ring, hx]; norm_num
      linear_combination 10 / 9 * p.coeff 2 * hx + 10 / 9 * p.coeff 4 * hx4
/-- C60 `n < 1` raises ValueError. -/
theorem rootsLegendre_rejects (n : ℤ) (h : n < 1) : rootsLegendre findroot n = .error .valueError := by
  rw [rootsLegendre, if_pos h]; rfl

theorem nodes_sorted {n : ℕ} {R : List ℝ} (hpos : ∀ x ∈ R, 0 < x) (hdec : R.Pairwise (· > ·)) : (nodes n R).Pairwise (· < ·) := by
  have h1 : (R.map (- ·)).Pairwise (· < ·) := by
    rw [List.pairwise_map]; exact hdec.imp fun h => neg_lt_neg h
  have h2 : R.reverse.Pairwise (· < ·) := List.pairwise_reverse.2 hdec
  rw [nodes]
  split_ifs with ho
  · refine List.pairwise_append.2 ⟨List.pairwise_append.2 ⟨h1, by simp, fun a ha b hb => ?_⟩, h2, fun a ha b hb => ?_⟩
    · obtain ⟨x, hx, rfl⟩ := List.mem_map.1 ha
      rw [List.mem_singleton.1 hb]
      exact neg_lt_zero.2 (hpos x hx)
    · have hb' := hpos b (List.mem_reverse.1 hb)
      rcases List.mem_append.1 ha with ha | ha
      · obtain ⟨x, hx, rfl⟩ := List.mem_map.1 ha
        linarith [hpos x hx]
      · rw [List.mem_singleton.1 ha]; exact hb'
  · rw [List.append_nil]
    refine List.pairwise_append.2 ⟨h1, h2, fun a ha b hb => ?_⟩
    obtain ⟨x, hx, rfl⟩ := List.mem_map.1 ha
    linarith [hpos x hx, hpos b (List.mem_reverse.1 hb)]

theorem nodes_zero {n : ℕ} {R : List ℝ} (hz : ∀ x ∈ R, (P n).eval x = 0) : ∀ x ∈ nodes n R, (P n).eval x = 0 := by
  intro x hx
  rw [nodes, List.mem_append, List.mem_append] at hx
  rcases hx with (hx | hx) | hx
  · obtain ⟨y, hy, rfl⟩ := List.mem_map.1 hx
    rw [P_symm, hz y hy, mul_zero]
  · split_ifs at hx with ho
    · rw [List.mem_singleton.1 hx]; exact P_zero ho
    · simp at hx
  · exact hz x (List.mem_reverse.1 hx)

theorem nodes_length {n : ℕ} {R : List ℝ} (h : R.length = n / 2) : (nodes n R).length = n := by
  rw [nodes]
  split_ifs with ho <;> simp [h] <;> omega

theorem gauss_of_nodes {n : ℕ} {xs : List ℝ} (hl : xs.length = n) (hs : xs.Pairwise (· < ·)) (hz : ∀ x ∈ xs, (P n).eval x = 0) :
    IsGaussLegendre n xs (xs.map (w n)) := by
  have hnd : xs.Nodup := hs.imp fun h => h.ne
  have hc : xs.toFinset.card = n := by rw [List.toFinset_card_of_nodup hnd, hl]
  have hz' : ∀ x ∈ xs.toFinset, (P n).eval x = 0 := fun x hx => hz x (List.mem_toFinset.1 hx)
  refine ⟨hl, by rw [List.length_map, hl], hs, fun x hx => zero_mem (hz x hx), fun v hv => ?_, fun p hp => ?_⟩
  · obtain ⟨x, hx, rfl⟩ := List.mem_map.1 hv
    exact w_pos hc hz' (List.mem_toFinset.2 hx)
  · rw [← gauss hc hz' hp, List.sum_toFinset _ hnd]
    congr 1
    rw [List.zipWith_map_right]
    induction xs with
    | nil => rfl
    | cons a l ih => simp

theorem derivs_ne {n : ℕ} {xs : List ℝ} (hl : xs.length = n) (hs : xs.Pairwise (· < ·)) (hz : ∀ x ∈ xs, (P n).eval x = 0) {x : ℝ} (hx : x ∈ xs) :
    1 - x ^ 2 ≠ 0 ∧ (derivative (P n)).eval x ≠ 0 := by
  have hnd : xs.Nodup := hs.imp fun h => h.ne
  refine ⟨?_, (weight (s := xs.toFinset) (by rw [List.toFinset_card_of_nodup hnd, hl]) (fun x hx => hz x (List.mem_toFinset.1 hx)) (List.mem_toFinset.2 hx)).1⟩
  obtain ⟨h1, h2⟩ := zero_mem (hz x hx)
  have : 0 < 1 - x ^ 2 := by nlinarith
  exact this.ne'

/-- C60 From `n = 4` on, if the search number `k` ends in a positive zero of the Legendre polynomial, and these zeros decrease with `k`. Missing:
that the secant method does this from the starting points of the code. -/
theorem rootsLegendre_partial {n : ℕ} (h4 : 4 ≤ n) {R : List ℝ} (hR : R.length = n / 2) (hpos : ∀ x ∈ R, 0 < x) (hdec : R.Pairwise (· > ·))
    (hz : ∀ x ∈ R, mp.legendre n (fin x) = .ok 0)
    (hf : ∀ i, (h : i < R.length) → ∃ x0, rootApprox n (i + 1) = .ok x0 ∧ findroot (mp.legendre n) x0 = .ok (fin R[i])) :
    ∃ xs ws : List ℝ, rootsLegendre findroot n = .ok (xs.map fin, ws.map fin) ∧ IsGaussLegendre n xs ws := by
  have hz' : ∀ x ∈ R, (P n).eval x = 0 := fun x hx => by
    have := hz x hx
    rw [mp.legendre_fin] at this
    exact fin.inj (Except.ok.inj this)
  have hl := nodes_length hR
  have hs := nodes_sorted (n := n) hpos hdec
  have hzz := nodes_zero hz'
  refine ⟨nodes n R, (nodes n R).map (w n), rootsLegendre_eval h4 ?_ (fun x hx => derivs_ne hl hs hzz ?_) (fun ho => (derivs_ne hl hs hzz ?_).2),
    gauss_of_nodes hl hs hzz⟩
  · have e : R.map fin = (List.range (n / 2)).map fun i => fin (R.getD i 0) := by
      refine List.ext_getElem (by simp [hR]) fun i h1 h2 => ?_
      simp at h1
      simp [List.getElem?_eq_getElem h1]
    rw [e]
    refine py.mapM_fin _ fun i hi => ?_
    have hi' : i < R.length := by rw [hR]; exact List.mem_range.1 hi
    obtain ⟨y, hy, hfy⟩ := hf i hi'
    rw [rootApprox_eq (by omega)] at hy
    rw [Except.ok.inj hy, hfy]
    simp [List.getElem?_eq_getElem hi']
  · rw [nodes]; simp [hx]
  · rw [nodes]; simp [ho]

theorem mapM_ok {α β : Type} {f : α → M β} : ∀ {l : List α} {r : List β}, l.mapM f = .ok r → r.length = l.length ∧ ∀ b ∈ r, ∃ a ∈ l, f a = .ok b
  | [], r, h => by
    simp at h; subst h; simp
  | a :: l, r, h => by
    rw [List.mapM_cons] at h
    cases ha : f a with
    | error e => rw [ha] at h; exact absurd h (by simp)
    | ok b =>
      cases hl : l.mapM f with
      | error e => rw [ha, hl] at h; exact absurd h (by simp)
      | ok r' =>
        rw [ha, hl] at h
        obtain rfl := Except.ok.inj h
        obtain ⟨h1, h2⟩ := mapM_ok hl
        refine ⟨by simp [h1], fun c hc => ?_⟩
        rcases List.mem_cons.1 hc with rfl | hc
        · exact ⟨a, by simp, ha⟩
        · obtain ⟨a', ha', he⟩ := h2 c hc
          exact ⟨a', by simp [ha'], he⟩

/-- C60 If what `findroot` returns is a zero of its argument, whatever `roots_legendre` returns is the Gauss-Legendre rule, provided the nodes
come out in increasing order. -/
theorem rootsLegendre_sound (hr : SoundFinder findroot) {n : ℕ} (h1 : 1 ≤ n) {X W : List Num} (h : rootsLegendre findroot n = .ok (X, W))
    (hX : X.Pairwise (· < ·)) : ∃ xs ws : List ℝ, X = xs.map fin ∧ W = ws.map fin ∧ IsGaussLegendre n xs ws := by
  rcases le_or_gt n 3 with h3 | h4
  · obtain ⟨xs, ws, e, hg⟩ := rootsLegendre_closed (findroot := findroot) n h1 h3
    rw [e] at h
    obtain ⟨rfl, rfl⟩ := Prod.mk.inj (Except.ok.inj h)
    exact ⟨xs, ws, rfl, rfl, hg⟩
  have h4' : 4 ≤ n := h4
  have a1 : ¬ ((n:ℤ) < 1) := by omega
  have a2 : ¬ ((n:ℤ) = 1) := by omega
  have a3 : ¬ ((n:ℤ) = 2) := by omega
  have a4 : ¬ ((n:ℤ) = 3) := by omega
  have e1 : (List.range (n / 2)).mapM (fun i => rootApprox n (i + 1)) = .ok ((List.range (n / 2)).map fun i => fin (x0 n (i + 1))) :=
    py.mapM_fin _ fun i _ => rootApprox_eq (by omega) _
  have hh := h
  rw [rootsLegendre, if_neg a1, if_neg a2, if_neg a3, if_neg a4] at hh
  simp only [Int.toNat_natCast, e1, ok_bind, List.mapM_map] at hh
  obtain ⟨roots, hroots, hh⟩ := ok_of_bind hh
  obtain ⟨hlen, hmem⟩ := mapM_ok hroots
  have hfin : ∀ r ∈ roots, ∃ x : ℝ, r = fin x ∧ (P n).eval x = 0 := fun r hr' => by
    obtain ⟨i, -, hi⟩ := hmem r hr'
    have := hr _ _ _ hi
    cases r with
    | fin x => rw [mp.legendre_fin] at this; exact ⟨x, rfl, fin.inj (Except.ok.inj this)⟩
    | _ => exact absurd this (by simp [mp.legendre])
  obtain ⟨R, rfl⟩ : ∃ R : List ℝ, roots = R.map fin := by
    refine ⟨roots.map fun r => if h : ∃ x : ℝ, r = fin x then h.choose else 0, ?_⟩
    rw [List.map_map]
    conv_lhs => rw [← List.map_id roots]
    refine List.map_congr_left fun r hr' => ?_
    obtain ⟨x, hx, -⟩ := hfin r hr'
    have h : ∃ x : ℝ, r = fin x := ⟨x, hx⟩
    rw [Function.comp_apply, dif_pos h]; exact h.choose_spec
  have hz : ∀ x ∈ R, (P n).eval x = 0 := fun x hx => by
    obtain ⟨y, hy, h0⟩ := hfin (fin x) (List.mem_map_of_mem hx)
    rw [fin.inj hy]; exact h0
  have hX' : X = (nodes n R).map fin := by
    obtain ⟨derivs, -, hh⟩ := ok_of_bind hh
    obtain ⟨weights, -, hh⟩ := ok_of_bind hh
    split_ifs at hh with ho
    · obtain ⟨d, -, hh⟩ := ok_of_bind hh
      obtain ⟨v, -, hh⟩ := ok_of_bind hh
      simp only [pure_eq_ok, ok_bind] at hh
      rw [← (Prod.mk.inj (Except.ok.inj hh)).1, nodes, if_pos ho]
      simp [Function.comp_def, zero_def]
    · simp only [pure_eq_ok, ok_bind] at hh
      rw [← (Prod.mk.inj (Except.ok.inj hh)).1, nodes, if_neg ho]
      simp [Function.comp_def]
  have hs : (nodes n R).Pairwise (· < ·) := by
    rw [hX', List.pairwise_map] at hX
    exact hX.imp fun h => h
  have hl : (nodes n R).length = n := nodes_length (by simpa using hlen)
  have hzz := nodes_zero hz
  have he := rootsLegendre_eval (findroot := findroot) h4' hroots (fun x hx => derivs_ne hl hs hzz (by rw [nodes]; simp [hx]))
    (fun ho => (derivs_ne hl hs hzz (by rw [nodes]; simp [ho])).2)
  rw [h] at he
  obtain ⟨-, rfl⟩ := Prod.mk.inj (Except.ok.inj he)
  exact ⟨_, _, hX', rfl, gauss_of_nodes hl hs hzz⟩

/-- the positive zeros of the Legendre polynomial -/
theorem exists_zeros (n : ℕ) : ∃ R : List ℝ, R.length = n / 2 ∧ (∀ x ∈ R, 0 < x) ∧ R.Pairwise (· > ·) ∧ ∀ x ∈ R, (P n).eval x = 0 := by
  set s := (P n).roots.toFinset with hs
  have hc : s.card = n := by rw [hs, Multiset.toFinset_card_of_nodup (nodup n), card_roots]
  have hm : ∀ x, x ∈ s ↔ (P n).eval x = 0 := fun x => by rw [hs, Multiset.mem_toFinset, mem_roots P_ne]; rfl
  have hneg : (s.filter (· < 0)).card = (s.filter (0 < ·)).card := by
    refine Finset.card_bij (fun x _ => -x) (fun x hx => ?_) (fun a _ b _ h => neg_inj.1 h) (fun y hy => ⟨-y, ?_, neg_neg y⟩)
    · rw [Finset.mem_filter, hm] at hx ⊢
      exact ⟨by rw [P_symm, hx.1, mul_zero], neg_pos.2 hx.2⟩
    · rw [Finset.mem_filter, hm] at hy ⊢
      exact ⟨by rw [P_symm, hy.1, mul_zero], neg_lt_zero.2 hy.2⟩
  have hz : (s.filter (· = 0)).card ≤ 1 := Finset.card_le_one.2 fun a ha b hb => by
    rw [(Finset.mem_filter.1 ha).2, (Finset.mem_filter.1 hb).2]
  have h1 := Finset.card_filter_add_card_filter_not (s := s) (fun x : ℝ => 0 < x)
  have h2 := Finset.card_filter_add_card_filter_not (s := s.filter fun x : ℝ => ¬ 0 < x) (fun x : ℝ => x < 0)
  have e1 : (s.filter fun x : ℝ => ¬ 0 < x).filter (fun x => x < 0) = s.filter (· < 0) := by
    ext x; simp only [Finset.mem_filter]; constructor
    · rintro ⟨⟨a, b⟩, c⟩; exact ⟨a, c⟩
    · rintro ⟨a, c⟩; exact ⟨⟨a, not_lt.2 c.le⟩, c⟩
  have e2 : (s.filter fun x : ℝ => ¬ 0 < x).filter (fun x => ¬ x < 0) = s.filter (· = 0) := by
    ext x; simp only [Finset.mem_filter]; constructor
    · rintro ⟨⟨a, b⟩, c⟩; exact ⟨a, le_antisymm (not_lt.1 b) (not_lt.1 c)⟩
    · rintro ⟨a, rfl⟩; exact ⟨⟨a, lt_irrefl _⟩, lt_irrefl _⟩
  rw [e1, e2] at h2
  have hmem : ∀ x, x ∈ ((s.filter (0 < ·)).sort (· ≤ ·)).reverse ↔ (P n).eval x = 0 ∧ 0 < x := fun x => by
    rw [List.mem_reverse, Finset.mem_sort, Finset.mem_filter, hm]
  refine ⟨((s.filter (0 < ·)).sort (· ≤ ·)).reverse, ?_, fun x hx => ((hmem x).1 hx).2, ?_, fun x hx => ((hmem x).1 hx).1⟩
  · rw [List.length_reverse, Finset.length_sort]; omega
  · exact List.pairwise_reverse.2 (Finset.sortedLT_sort _).pairwise

theorem angle_mem {n k : ℕ} (hk : 1 ≤ k) (hkn : k ≤ n / 2) : 0 < Real.pi * (4 * k - 1) / (4 * n + 2) ∧ Real.pi * (4 * k - 1) / (4 * n + 2) < Real.pi / 2 := by
  have h1 : (1:ℝ) ≤ k := by exact_mod_cast hk
  have h2 : 2 * (k:ℝ) ≤ n := by exact_mod_cast (show 2 * k ≤ n by omega)
  have hp := Real.pi_pos
  constructor
  · exact div_pos (mul_pos hp (by linarith)) (by linarith)
  · rw [div_lt_div_iff₀ (by linarith) two_pos]; nlinarith

theorem factor_mem {n : ℕ} (hn : 1 ≤ n) : 0 < 1 + 1 / (8 * (n:ℝ) ^ 2) * (-1 + 1 / n) ∧ 1 + 1 / (8 * (n:ℝ) ^ 2) * (-1 + 1 / n) ≤ 1 := by
  have h1 : (1:ℝ) ≤ n := by exact_mod_cast hn
  have h2 : 1 / (n:ℝ) ≤ 1 := (div_le_one (by linarith)).2 h1
  have h3 : 0 < 1 / (n:ℝ) := by positivity
  have h4 : 0 < 1 / (8 * (n:ℝ) ^ 2) := by positivity
  have h5 : 1 / (8 * (n:ℝ) ^ 2) ≤ 1 / 8 := one_div_le_one_div_of_le (by norm_num) (by nlinarith)
  constructor <;> nlinarith

/-- C60 The starting points of the searches lie between 0 and 1 and decrease. -/
theorem rootApprox_spec {n : ℕ} (hn : 2 ≤ n) : ∃ x : ℕ → ℝ, (∀ k, 1 ≤ k → k ≤ n / 2 → rootApprox n k = .ok (fin (x k)) ∧ 0 < x k ∧ x k < 1) ∧
    ∀ j k, 1 ≤ j → j < k → k ≤ n / 2 → x k < x j := by
  obtain ⟨f0, f1⟩ := factor_mem (show 1 ≤ n by omega)
  refine ⟨x0 n, fun k h1 h2 => ⟨rootApprox_eq (by omega) k, ?_, ?_⟩, fun j k h1 h2 h3 => ?_⟩
  · obtain ⟨a0, a1⟩ := angle_mem h1 h2
    exact mul_pos f0 (Real.cos_pos_of_mem_Ioo ⟨by linarith, a1⟩)
  · obtain ⟨a0, a1⟩ := angle_mem h1 h2
    have c1 : Real.cos (Real.pi * (4 * k - 1) / (4 * n + 2)) < 1 := by
      have := Real.cos_lt_cos_of_nonneg_of_le_pi le_rfl (by linarith [Real.pi_pos]) a0
      rwa [Real.cos_zero] at this
    have c0 := Real.cos_pos_of_mem_Ioo (x := Real.pi * (4 * k - 1) / (4 * n + 2)) ⟨by linarith, a1⟩
    rw [x0]; nlinarith
  · obtain ⟨a0, a1⟩ := angle_mem h1 (by omega : j ≤ n / 2)
    obtain ⟨b0, b1⟩ := angle_mem (by omega : 1 ≤ k) h3
    refine mul_lt_mul_of_pos_left (Real.cos_lt_cos_of_nonneg_of_le_pi a0.le (by linarith [Real.pi_pos]) ?_) f0
    have : (j:ℝ) < k := by exact_mod_cast h2
    have hp := Real.pi_pos
    exact div_lt_div_of_pos_right (by nlinarith) (by positivity)

/-- There are root finders as in `rootsLegendre_partial`, and they can be sound. -/
theorem exists_finder {n : ℕ} (h4 : 4 ≤ n) : ∃ findroot, SoundFinder findroot ∧ ∃ xs ws : List ℝ,
    rootsLegendre findroot n = .ok (xs.map fin, ws.map fin) ∧ IsGaussLegendre n xs ws := by
  obtain ⟨R, hl, hpos, hdec, hz⟩ := exists_zeros n
  obtain ⟨x, hx, hxd⟩ := rootApprox_spec (show 2 ≤ n by omega)
  refine ⟨fun f y => if h : f = mp.legendre n ∧ ∃ i, ∃ h : i < R.length, y = fin (x (i + 1)) then .ok (fin (R[h.2.choose]'h.2.choose_spec.1)) else .error .valueError,
    fun f y r h => ?_, rootsLegendre_partial h4 hl hpos hdec (fun r hr => by rw [mp.legendre_fin, hz r hr]; rfl) fun i hi => ?_⟩
  · by_cases hc : f = mp.legendre n ∧ ∃ i, ∃ h : i < R.length, y = fin (x (i + 1))
    · simp only [dif_pos hc] at h
      have key : ∀ u ∈ R, f (fin u) = .ok 0 := fun u hu => by rw [hc.1, mp.legendre_fin, hz u hu]; rfl
      rw [← Except.ok.inj h]; exact key _ (List.getElem_mem _)
    · simp only [dif_neg hc] at h; exact absurd h (by simp)
  · refine ⟨fin (x (i + 1)), (hx (i + 1) (by omega) (by omega)).1, ?_⟩
    have hc : mp.legendre n = mp.legendre n ∧ ∃ j, ∃ h : j < R.length, fin (x (i + 1)) = fin (x (j + 1)) := ⟨rfl, i, hi, rfl⟩
    rw [dif_pos hc]
    obtain ⟨hj, he⟩ := hc.2.choose_spec
    have : hc.2.choose = i := by
      by_contra hne
      have he := fin.inj he
      rcases lt_or_gt_of_ne hne with hlt | hlt
      · have := hxd (hc.2.choose + 1) (i + 1) (by omega) (by omega) (by omega); linarith
      · have := hxd (i + 1) (hc.2.choose + 1) (by omega) (by omega) (by omega); linarith
    simp only [this]

end Mpsci.fun_
