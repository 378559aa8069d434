import Verif.Model.Stats.OddsRatio
import Verif.Spec.OddsRatio
import Verif.Spec.RootFinder
import Verif.Props.Disc.FishersNCHypergeometric
import Mathlib.Topology.Order.IntermediateValue
import Mathlib.Topology.Algebra.Order.Field

/-! Lemmas about the conditional distribution of a table as a function of the odds ratio. -/

namespace Mpsci.oddsRatio

open Classical Num Finset Spec fishers_noncentral_hypergeometric
open hypergeometric (H H_pos H_nonneg choose_posR)

variable {K R n : ℕ} {c d : ℝ} {w : ℕ → ℝ}

/-- The expected value of `w`. -/
noncomputable def G (w : ℕ → ℝ) (K R n : ℕ) (c : ℝ) : ℝ := ∑ k ∈ range (n + 1), w k * F c K R n k

theorem F_eq {k : ℕ} (hc : 0 < c) (hn : n ≤ K + R) (hk : k ≤ n) : F c K R n k = condProb K R n c k := by
  have h0 : (0:ℝ) < (K + R).choose n := choose_posR hn
  simp only [F, Z, u, H, condProb]
  rw [← mul_div_mul_right _ (∑ k ∈ range (n + 1), (fisherExact.w K R n k : ℝ) / (K + R).choose n * c ^ k)
    h0.ne', sum_mul]
  have e : ∀ j ≤ n, (fisherExact.w K R n j : ℝ) / (K + R).choose n * c ^ j * (K + R).choose n =
      (K.choose j : ℝ) * R.choose (n - j) * c ^ j := by
    intro j hj
    rw [fisherExact.w, if_pos hj]; push_cast; field_simp
  rw [e k hk, sum_congr rfl fun j hj => e j (by rw [mem_range] at hj; omega)]

theorem G_eq (w : ℕ → ℝ) (hc : 0 < c) (hn : n ≤ K + R) :
    G w K R n c = ∑ k ∈ range (n + 1), w k * condProb K R n c k :=
  sum_congr rfl fun k hk => by rw [F_eq hc hn (by rw [mem_range] at hk; omega)]

theorem G_div (w : ℕ → ℝ) : G w K R n c = (∑ k ∈ range (n + 1), w k * u c K R n k) / Z c K R n := by
  rw [G, sum_div]; exact sum_congr rfl fun k _ => by rw [F, mul_div_assoc]

theorem G_one (hc : 0 < c) (hn : n ≤ K + R) : G (fun _ => 1) K R n c = 1 := by
  rw [G_div]; simp only [one_mul]; exact div_self (Z_pos hc hn).ne'

theorem cross {k j : ℕ} (hc : 0 < c) (hd : c < d) (hw : Monotone w) :
    0 ≤ (w k - w j) * (u d K R n k * u c K R n j - u c K R n k * u d K R n j) := by
  have e : u d K R n k * u c K R n j - u c K R n k * u d K R n j =
      H K R n k * H K R n j * (d ^ k * c ^ j - c ^ k * d ^ j) := by simp only [u]; ring
  rw [e]
  have hH : 0 ≤ H K R n k * H K R n j := mul_nonneg H_nonneg H_nonneg
  rcases le_total j k with h | h
  · obtain ⟨i, rfl⟩ := Nat.exists_eq_add_of_le h
    have h1 : c ^ i ≤ d ^ i := pow_le_pow_left₀ hc.le hd.le i
    have h2 : d ^ (j + i) * c ^ j - c ^ (j + i) * d ^ j = (d ^ j * c ^ j) * (d ^ i - c ^ i) := by ring
    rw [h2]
    have h3 : 0 < d := hc.trans hd
    exact mul_nonneg (sub_nonneg.2 (hw h)) (mul_nonneg hH (mul_nonneg (by positivity) (sub_nonneg.2 h1)))
  · obtain ⟨i, rfl⟩ := Nat.exists_eq_add_of_le h
    have h1 : c ^ i ≤ d ^ i := pow_le_pow_left₀ hc.le hd.le i
    have h2 : d ^ k * c ^ (k + i) - c ^ k * d ^ (k + i) = (d ^ k * c ^ k) * -(d ^ i - c ^ i) := by ring
    rw [h2]
    have h3 : 0 < d := hc.trans hd
    have h4 : 0 ≤ (w (k + i) - w k) *
        (H K R n k * H K R n (k + i) * ((d ^ k * c ^ k) * (d ^ i - c ^ i))) :=
      mul_nonneg (sub_nonneg.2 (hw h)) (mul_nonneg hH (mul_nonneg (by positivity) (sub_nonneg.2 h1)))
    linarith

theorem cross_pos {k j : ℕ} (hc : 0 < c) (hd : c < d) (hw : w j < w k) (h : j < k)
    (hk : 0 < H K R n k) (hj : 0 < H K R n j) :
    0 < (w k - w j) * (u d K R n k * u c K R n j - u c K R n k * u d K R n j) := by
  have e : u d K R n k * u c K R n j - u c K R n k * u d K R n j =
      H K R n k * H K R n j * (d ^ k * c ^ j - c ^ k * d ^ j) := by simp only [u]; ring
  rw [e]
  obtain ⟨i, rfl⟩ := Nat.exists_eq_add_of_le h.le
  have h1 : c ^ i < d ^ i := pow_lt_pow_left₀ hd hc.le (by omega)
  have h2 : d ^ (j + i) * c ^ j - c ^ (j + i) * d ^ j = (d ^ j * c ^ j) * (d ^ i - c ^ i) := by ring
  rw [h2]
  have h3 : 0 < d := hc.trans hd
  exact mul_pos (sub_pos.2 hw) (mul_pos (mul_pos hk hj) (mul_pos (by positivity) (sub_pos.2 h1)))

theorem G_lt {l h : ℕ} (hc : 0 < c) (hd : c < d) (hn : n ≤ K + R) (hw : Monotone w) (hlh : w l < w h)
    (h1 : l < h) (h2 : h ≤ n) (hl : 0 < H K R n l) (hh : 0 < H K R n h) :
    G w K R n c < G w K R n d := by
  have hd' := hc.trans hd
  rw [G_div, G_div, div_lt_div_iff₀ (Z_pos hc hn) (Z_pos hd' hn)]
  set A := ∑ k ∈ range (n + 1), ∑ j ∈ range (n + 1), w k * (u d K R n k * u c K R n j - u c K R n k * u d K R n j)
    with hA
  have e1 : (∑ k ∈ range (n + 1), w k * u d K R n k) * Z c K R n -
      (∑ k ∈ range (n + 1), w k * u c K R n k) * Z d K R n = A := by
    rw [Z, Z, sum_mul_sum, sum_mul_sum, ← sum_sub_distrib]
    refine sum_congr rfl fun k _ => ?_
    rw [← sum_sub_distrib]
    exact sum_congr rfl fun j _ => by ring
  have e2 : A + A = ∑ k ∈ range (n + 1), ∑ j ∈ range (n + 1),
      (w k - w j) * (u d K R n k * u c K R n j - u c K R n k * u d K R n j) := by
    nth_rewrite 2 [hA]
    rw [sum_comm, hA, ← sum_add_distrib]
    refine sum_congr rfl fun k _ => ?_
    rw [← sum_add_distrib]
    exact sum_congr rfl fun j _ => by ring
  have e3 : 0 < A + A := by
    rw [e2]
    refine sum_pos' (fun k _ => sum_nonneg fun j _ => cross hc hd hw) ⟨h, mem_range.2 (by omega), ?_⟩
    exact sum_pos' (fun j _ => cross hc hd hw) ⟨l, mem_range.2 (by omega), cross_pos hc hd hlh h1 hh hl⟩
  linarith

theorem G_continuousOn (hn : n ≤ K + R) : ContinuousOn (G w K R n) (Set.Ioi 0) := by
  have : ContinuousOn (fun c => (∑ k ∈ range (n + 1), w k * u c K R n k) / Z c K R n) (Set.Ioi 0) := by
    refine ContinuousOn.div ?_ ?_ fun c hc => (Z_pos hc hn).ne'
    · unfold u; exact Continuous.continuousOn (by fun_prop)
    · unfold Z u; exact Continuous.continuousOn (by fun_prop)
  exact this.congr fun c _ => G_div w

theorem G_neg_near_zero {l : ℕ} (hn : n ≤ K + R) (h2 : l ≤ n) (hl : 0 < H K R n l)
    (hz : ∀ k < l, H K R n k = 0) (hw : w l < 0) : ∃ δ > 0, ∀ c, 0 < c → c ≤ δ → G w K R n c < 0 := by
  have hp : Continuous fun c : ℝ => ∑ k ∈ range (n + 1), w k * (H K R n k * c ^ (k - l)) := by fun_prop
  have h0 : (fun c : ℝ => ∑ k ∈ range (n + 1), w k * (H K R n k * c ^ (k - l))) 0 < 0 := by
    show ∑ k ∈ range (n + 1), w k * (H K R n k * 0 ^ (k - l)) < 0
    rw [sum_eq_single l]
    · simpa using mul_neg_of_neg_of_pos hw hl
    · intro k _ hk
      rcases lt_or_gt_of_ne hk with h | h
      · rw [hz k h]; ring
      · rw [zero_pow (by omega)]; ring
    · intro h; exact absurd (mem_range.2 (by omega)) h
  have h3 := (hp.tendsto 0).eventually (gt_mem_nhds h0)
  obtain ⟨δ, hδ, h4⟩ := Metric.eventually_nhds_iff.1 h3
  refine ⟨δ / 2, by positivity, fun c hc hcδ => ?_⟩
  have h5 := h4 (y := c) (by rw [Real.dist_eq, sub_zero, abs_of_pos hc]; linarith)
  rw [G_div]
  refine div_neg_of_neg_of_pos ?_ (Z_pos hc hn)
  have : ∑ k ∈ range (n + 1), w k * u c K R n k =
      c ^ l * ∑ k ∈ range (n + 1), w k * (H K R n k * c ^ (k - l)) := by
    rw [mul_sum]
    refine sum_congr rfl fun k _ => ?_
    rcases lt_or_ge k l with h | h
    · rw [u, hz k h]; ring
    · obtain ⟨i, rfl⟩ := Nat.exists_eq_add_of_le h
      rw [u, Nat.add_sub_cancel_left, pow_add]; ring
  rw [this]
  exact mul_neg_of_pos_of_neg (by positivity) h5

theorem G_pos_near_top {h : ℕ} (hn : n ≤ K + R) (h2 : h ≤ n) (hh : 0 < H K R n h)
    (hz : ∀ k, h < k → H K R n k = 0) (hw : 0 < w h) : ∃ D > 0, ∀ c, D ≤ c → 0 < G w K R n c := by
  have hp : Continuous fun y : ℝ => ∑ k ∈ range (n + 1), w k * (H K R n k * y ^ (h - k)) := by fun_prop
  have h0 : 0 < (fun y : ℝ => ∑ k ∈ range (n + 1), w k * (H K R n k * y ^ (h - k))) 0 := by
    show 0 < ∑ k ∈ range (n + 1), w k * (H K R n k * 0 ^ (h - k))
    rw [sum_eq_single h]
    · simpa using mul_pos hw hh
    · intro k _ hk
      rcases lt_or_gt_of_ne hk with h | h
      · rw [zero_pow (by omega)]; ring
      · rw [hz k h]; ring
    · intro h; exact absurd (mem_range.2 (by omega)) h
  have h3 := (hp.tendsto 0).eventually (lt_mem_nhds h0)
  obtain ⟨δ, hδ, h4⟩ := Metric.eventually_nhds_iff.1 h3
  refine ⟨2 / δ, by positivity, fun c hcδ => ?_⟩
  have hc : 0 < c := lt_of_lt_of_le (by positivity) hcδ
  have h6 : 1 / c < δ := by
    rw [div_lt_iff₀ hc]
    have := (div_le_iff₀ hδ).1 hcδ
    nlinarith
  have h5 := h4 (y := 1 / c) (by rw [Real.dist_eq, sub_zero, abs_of_pos (by positivity)]; exact h6)
  rw [G_div]
  refine div_pos ?_ (Z_pos hc hn)
  have : ∑ k ∈ range (n + 1), w k * u c K R n k =
      c ^ h * ∑ k ∈ range (n + 1), w k * (H K R n k * (1 / c) ^ (h - k)) := by
    rw [mul_sum]
    refine sum_congr rfl fun k _ => ?_
    rcases lt_or_ge h k with h | h
    · rw [u, hz k h]; ring
    · obtain ⟨i, rfl⟩ := Nat.exists_eq_add_of_le h
      rw [u, Nat.add_sub_cancel_left, pow_add, one_div, inv_pow]
      field_simp
  rw [this]
  exact mul_pos (by positivity) h5

/-! ### The solver -/

/-- The value of a finite number. -/
def val : Num → ℝ
  | fin x => x
  | _ => 0
@[simp] theorem val_fin (x : ℝ) : val (fin x) = x := rfl

theorem solve_spec {findroot : (Num → M Num) → Num → Num → M Num} (hr : RootFinder findroot)
    {f : Num → M Num} {g : ℝ → ℝ} (hf : ∀ x, 0 < x → f (fin x) = .ok (fin (g x)))
    (hg : ContinuousOn g (Set.Ioi 0)) (h0 : ∃ δ > 0, ∀ c, 0 < c → c ≤ δ → g c < 0)
    (h1 : ∃ D > 0, ∀ c, D ≤ c → 0 < g c) :
    ∃ N r, 0 < r ∧ g r = 0 ∧ ∀ fuel ≥ N, solve fuel findroot f = .ok (fin r) := by
  have e1 : f 1 = .ok (fin (g 1)) := hf 1 one_pos
  have sub : ∀ {a b : ℝ}, 0 < a → Set.Icc a b ⊆ Set.Ioi 0 := fun ha x hx => lt_of_lt_of_le ha hx.1
  rcases lt_trichotomy (g 1) 0 with h | h | h
  · obtain ⟨D, hD, hDg⟩ := h1
    obtain ⟨N, t, ⟨x, hx, hx0, hxl⟩, ht, hN⟩ := loop_ends
      (cond := fun nc : Num => do return (← f nc) < 0) (step := fun nc => return nc * 2)
      (I := fun s => ∃ x, s = fin x ∧ 0 < x ∧ g (x / 2) ≤ 0)
      (m := fun s => ⌊D / val s⌋₊)
      (C := fun s => g (val s) < 0) (f := fun s => s * 2)
      (by rintro s ⟨x, rfl, hx, -⟩; simp [hf x hx, val]) (fun _ _ _ => rfl)
      (by rintro s ⟨x, rfl, hx, -⟩ hC
          refine ⟨x * 2, by simp, by positivity, ?_⟩
          rw [mul_div_cancel_right₀ _ two_ne_zero]; exact hC.le)
      (by rintro s ⟨x, rfl, hx, -⟩ hC
          have h2 : x < D := by by_contra hcon; exact absurd (hDg x (not_lt.1 hcon)) (not_lt.2 hC.le)
          have h3 : 1 ≤ D / x := (one_le_div hx).2 h2.le
          have h4 : 1 ≤ ⌊D / x⌋₊ := by rwa [Nat.one_le_floor_iff]
          show ⌊D / val (fin x * 2)⌋₊ < ⌊D / x⌋₊
          have h5 : val (fin x * 2 : Num) = x * 2 := by simp [val]
          rw [h5, Nat.floor_lt (by positivity)]
          have h6 := Nat.lt_floor_add_one (D / x)
          have h7 : (1:ℝ) ≤ (⌊D / x⌋₊ : ℝ) := by exact_mod_cast h4
          rw [show D / (x * 2) = D / x / 2 by field_simp]; linarith)
      (s := fin 2) ⟨2, rfl, by norm_num, by rw [div_self two_ne_zero]; exact h.le⟩
    subst hx
    have ht' : 0 ≤ g x := by simpa [val] using ht
    obtain ⟨r, hrm, hre, hr0⟩ := hr.up f g (x / 2) x (by linarith) (fun y hy => hf y (sub (by positivity) hy))
      (hg.mono (sub (by positivity))) hxl ht'
    refine ⟨N, r, sub (by positivity) hrm, hr0, fun n hn => ?_⟩
    have e2 : ((1:Num) * 2) = fin 2 := by simp [one_def, ofNat_def]
    have e3 : ¬ (fin (g 1) =. 0) := by simpa using h.ne
    have e4 : ¬ (fin (g 1) > 0) := by simpa using h.le
    have e5 : fin x /. 2 = .ok (fin (x / 2)) := fin_div _ two_ne_zero
    rw [solve, e1, ok_bind]
    simp only [if_neg e3, if_neg e4]
    rw [e2, hN n hn, ok_bind, e5, ok_bind, hre]
  · refine ⟨0, 1, one_pos, h, fun n _ => ?_⟩
    rw [solve, e1, ok_bind, h]
    simp
  · obtain ⟨D, hD, hDg⟩ := h0
    obtain ⟨N, t, ⟨x, hx, hx0, hxl⟩, ht, hN⟩ := loop_ends
      (cond := fun nc : Num => do return (← f nc) > 0) (step := fun nc => nc /. 2)
      (I := fun s => ∃ x, s = fin x ∧ 0 < x ∧ 0 ≤ g (2 * x))
      (m := fun s => ⌊val s / D⌋₊)
      (C := fun s => 0 < g (val s)) (f := fun s => fin (val s / 2))
      (by rintro s ⟨x, rfl, hx, -⟩; simp [hf x hx, val])
      (by rintro s ⟨x, rfl, hx, -⟩ -; exact fin_div _ two_ne_zero)
      (by rintro s ⟨x, rfl, hx, -⟩ hC
          refine ⟨x / 2, rfl, by positivity, ?_⟩
          rw [mul_div_cancel₀ _ two_ne_zero]; exact hC.le)
      (by rintro s ⟨x, rfl, hx, -⟩ hC
          have h2 : D < x := by by_contra hcon; exact absurd (hDg x hx (not_lt.1 hcon)) (not_lt.2 hC.le)
          have h3 : 1 ≤ x / D := (one_le_div hD).2 h2.le
          have h4 : 1 ≤ ⌊x / D⌋₊ := by rwa [Nat.one_le_floor_iff]
          show ⌊x / 2 / D⌋₊ < ⌊x / D⌋₊
          rw [Nat.floor_lt (by positivity)]
          have h6 := Nat.lt_floor_add_one (x / D)
          have h7 : (1:ℝ) ≤ (⌊x / D⌋₊ : ℝ) := by exact_mod_cast h4
          rw [show x / 2 / D = x / D / 2 by field_simp]; linarith)
      (s := fin (1 / 2)) ⟨1 / 2, rfl, by norm_num, by norm_num; exact h.le⟩
    subst hx
    have ht' : g x ≤ 0 := by simpa [val] using ht
    obtain ⟨r, hrm, hre, hr0⟩ := hr.up f g x (2 * x) (by linarith) (fun y hy => hf y (sub (by positivity) hy))
      (hg.mono (sub (by positivity))) ht' hxl
    refine ⟨N, r, sub (by positivity) hrm, hr0, fun n hn => ?_⟩
    have e2 : (1 : Num) /. 2 = .ok (fin (1 / 2)) := fin_div _ two_ne_zero
    have e3 : ¬ (fin (g 1) =. 0) := by simpa using h.ne'
    have e4 : (fin (g 1) > 0) := by simpa using h
    have e5 : 2 * fin x = fin (2 * x) := rfl
    rw [solve, e1, ok_bind]
    simp only [if_neg e3, if_pos e4]
    rw [e2, ok_bind, hN n hn, ok_bind, e5, hre]

theorem loop_forever {σ : Type} {cond : σ → M Prop} {step : σ → M σ} (I : σ → Prop) (f : σ → σ)
    (hc : ∀ s, I s → cond s = .ok True) (hs : ∀ s, I s → step s = .ok (f s)) (hI : ∀ s, I s → I (f s))
    {s : σ} (h : I s) (n : ℕ) : loop cond step n s = .error .diverges := by
  induction n generalizing s with
  | zero => rfl
  | succ n ih => simp only [loop, hc s h, hs s h, ok_bind, if_true]; exact ih (hI s h)

theorem solve_pos_diverges {findroot : (Num → M Num) → Num → Num → M Num}
    {f : Num → M Num} {g : ℝ → ℝ} (hf : ∀ x, 0 < x → f (fin x) = .ok (fin (g x)))
    (hg : ∀ x, 0 < x → 0 < g x) (fuel : ℕ) : solve fuel findroot f = .error .diverges := by
  have e1 : f 1 = .ok (fin (g 1)) := hf 1 one_pos
  have h := hg 1 one_pos
  have e2 : (1 : Num) /. 2 = .ok (fin (1 / 2)) := fin_div _ two_ne_zero
  have e3 : ¬ (fin (g 1) =. 0) := by simpa using h.ne'
  have e4 : (fin (g 1) > 0) := by simpa using h
  rw [solve, e1, ok_bind]
  simp only [if_neg e3, if_pos e4]
  rw [e2, ok_bind, loop_forever (fun s => ∃ x, s = fin x ∧ 0 < x) (fun s => fin (val s / 2))]
  · rfl
  · rintro s ⟨x, rfl, hx⟩; rw [hf x hx]; simp [hg x hx]
  · rintro s ⟨x, rfl, hx⟩; exact fin_div _ two_ne_zero
  · rintro s ⟨x, rfl, hx⟩; exact ⟨x / 2, rfl, by positivity⟩
  · exact ⟨1 / 2, rfl, by norm_num⟩

theorem solve_neg_diverges {findroot : (Num → M Num) → Num → Num → M Num}
    {f : Num → M Num} {g : ℝ → ℝ} (hf : ∀ x, 0 < x → f (fin x) = .ok (fin (g x)))
    (hg : ∀ x, 0 < x → g x < 0) (fuel : ℕ) : solve fuel findroot f = .error .diverges := by
  have e1 : f 1 = .ok (fin (g 1)) := hf 1 one_pos
  have h := hg 1 one_pos
  have e2 : ((1:Num) * 2) = fin 2 := by simp [one_def, ofNat_def]
  have e3 : ¬ (fin (g 1) =. 0) := by simpa using h.ne
  have e4 : ¬ (fin (g 1) > 0) := by simpa using h.le
  rw [solve, e1, ok_bind]
  simp only [if_neg e3, if_neg e4]
  rw [e2, loop_forever (fun s => ∃ x, s = fin x ∧ 0 < x) (fun s => fin (val s * 2))]
  · rfl
  · rintro s ⟨x, rfl, hx⟩; rw [hf x hx]; simp [hg x hx]
  · rintro s ⟨x, rfl, hx⟩; rfl
  · rintro s ⟨x, rfl, hx⟩; exact ⟨x * 2, rfl, by positivity⟩
  · exact ⟨2, rfl, by norm_num⟩

/-! ### The functions of the odds ratio that are solved -/

theorem sum_F {f : ℤ → ℝ} {s : ℝ} (h : HasSum (fun j : ℤ => f j * extZ (F c K R n) j) s) :
    s = G (fun k => f k) K R n c := by
  refine h.unique (hasSum_of (hasSum_extZ (g := fun k : ℕ => f k * F c K R n k) ?_) (fun k => ?_) rfl)
  · refine hasSum_sum_of_ne_finset_zero fun k hk => ?_
    rw [mem_range] at hk
    rw [F, u_zero (by unfold lo hi; omega)]; ring
  · exact forall_int (P := fun k => f k * extZ (F c K R n) k = extZ (fun k : ℕ => f k * F c K R n k) k)
      (fun k => by rw [extZ_nat, extZ_nat]) (fun k hk => by rw [extZ_neg _ hk, extZ_neg _ hk, mul_zero]) k

theorem mean_eval (hc : 0 < c) (hn : n ≤ K + R) :
    fishers_noncentral_hypergeometric.mean (fin c) ((K + R : ℕ) : ℤ) K n =
      .ok (fin (G (fun k => (k : ℝ)) K R n c)) := by
  obtain ⟨m, e, hm⟩ := meanOf_eval (extZ (F c K R n)) (a := lo R n) (b := hi K n) fun k hk => F_zero hk
  rw [fishers_noncentral_hypergeometric.mean, hv hn, ok_bind, supportPmf_eval hc hn, ok_bind, e, sum_F hm]
  simp

theorem cdf_eval (hc : 0 < c) (hn : n ≤ K + R) (x : ℤ) :
    fishers_noncentral_hypergeometric.cdf x (fin c) ((K + R : ℕ) : ℤ) K n =
      .ok (fin (G (fun k => if (k:ℤ) ≤ x then 1 else 0) K R n c)) := by
  obtain ⟨m, e, hm⟩ := cdfOf_eval (extZ (F c K R n)) (a := lo R n) (b := hi K n) (fun k hk => F_zero hk)
    (lo_lt_hi hn) (F_sum hc hn) x
  have hm' : HasSum (fun j : ℤ => (if j ≤ x then (1:ℝ) else 0) * extZ (F c K R n) j) m :=
    hasSum_of hm (fun k => by split_ifs <;> simp) rfl
  simp only [fishers_noncentral_hypergeometric.cdf, hv hn, ok_bind, supportPmf_eval hc hn]
  rw [e, sum_F hm']

theorem sf_eval (hc : 0 < c) (hn : n ≤ K + R) (x : ℤ) :
    fishers_noncentral_hypergeometric.sf x (fin c) ((K + R : ℕ) : ℤ) K n =
      .ok (fin (G (fun k => if x < (k:ℤ) then 1 else 0) K R n c)) := by
  obtain ⟨m, e, hm⟩ := sfOf_eval (extZ (F c K R n)) (a := lo R n) (b := hi K n) (fun k hk => F_zero hk)
    (lo_lt_hi hn) (F_sum hc hn) x
  have hm' : HasSum (fun j : ℤ => (if x < j then (1:ℝ) else 0) * extZ (F c K R n) j) m :=
    hasSum_of hm (fun k => by split_ifs <;> simp) rfl
  simp only [fishers_noncentral_hypergeometric.sf, hv hn, ok_bind, supportPmf_eval hc hn]
  rw [e, sum_F hm']

theorem G_sub (v : ℝ) (hc : 0 < c) (hn : n ≤ K + R) :
    G (fun k => w k - v) K R n c = G w K R n c - v := by
  have : G (fun k => w k - v) K R n c = G w K R n c - v * G (fun _ => 1) K R n c := by
    simp only [G]; rw [mul_sum, ← sum_sub_distrib]; exact sum_congr rfl fun k _ => by ring
  rw [this, G_one hc hn, mul_one]

theorem G_compl (w : ℕ → ℝ) (hc : 0 < c) (hn : n ≤ K + R) :
    G (fun k => 1 - w k) K R n c = 1 - G w K R n c := by
  have : G (fun k => 1 - w k) K R n c = G (fun _ => 1) K R n c - G w K R n c := by
    simp only [G]; rw [← sum_sub_distrib]; exact sum_congr rfl fun k _ => by ring
  rw [this, G_one hc hn]

/-- The smallest and the largest cell have positive probability and no other cell is outside. -/
theorem ends (hn : n ≤ K + R) : 0 < H K R n (n - R) ∧ 0 < H K R n (min n K) ∧
    (∀ k < n - R, H K R n k = 0) ∧ ∀ k, min n K < k → H K R n k = 0 := by
  refine ⟨H_pos hn (by omega) (by omega) (by omega), H_pos hn (by omega) (by omega) (by omega),
    fun k hk => ?_, fun k hk => ?_⟩
  · exact hypergeometric.H_zero (fisherExact.w_zero_of_lt (by omega))
  · exact hypergeometric.H_zero (fisherExact.w_zero_of_gt (by omega))

/-- The equation `E w = v` has exactly one solution, and `_solve` finds it. -/
theorem solve_G {findroot : (Num → M Num) → Num → Num → M Num} (hr : RootFinder findroot)
    {f : Num → M Num} {v : ℝ} (hn : n ≤ K + R) (hw : Monotone w)
    (hf : ∀ x, 0 < x → f (fin x) = .ok (fin (G w K R n x - v)))
    (hlv : w (n - R) < v) (hhv : v < w (min n K)) :
    ∃ N r, OnlySolution (G w K R n) v r ∧ ∀ fuel ≥ N, solve fuel findroot f = .ok (fin r) := by
  obtain ⟨e1, e2, e3, e4⟩ := ends hn
  have hlt : n - R < min n K := by
    by_contra h; exact absurd (hw (not_lt.1 h)) (not_le.2 (hlv.trans hhv))
  obtain ⟨N, r, h0, h1, h2⟩ := solve_spec hr (f := f) (g := G (fun k => w k - v) K R n)
    (fun x hx => by rw [hf x hx, G_sub v hx hn]) (G_continuousOn hn)
    (G_neg_near_zero hn (by omega) e1 e3 (by simpa using hlv))
    (G_pos_near_top hn (by omega) e2 e4 (by simpa using hhv))
  rw [G_sub v h0 hn] at h1
  have mono : ∀ {c d : ℝ}, 0 < c → c < d → G w K R n c < G w K R n d := fun hc hd =>
    G_lt hc hd hn hw (hlv.trans hhv) hlt (by omega) e1 e2
  refine ⟨N, r, ⟨h0, by linarith, fun r' hr' hv => ?_⟩, h2⟩
  rcases lt_trichotomy r' r with h | h | h
  · have := mono hr' h; linarith
  · exact h
  · have := mono h0 h; linarith

/-- The probability of the observed cell is largest when the expected value is the observed one. -/
theorem likelihood {a : ℕ} {r r' : ℝ} (hr : 0 < r) (hr' : 0 < r') (hn : n ≤ K + R) (ha : a ≤ n)
    (hm : G (fun k => (k:ℝ)) K R n r = a) : F r' K R n a ≤ F r K R n a := by
  set t := r' / r with ht
  have htp : 0 < t := div_pos hr' hr
  have hZ := Z_pos (K := K) (M := R) hr hn
  have hZ' := Z_pos (K := K) (M := R) hr' hn
  have hu : ∀ k, u r' K R n k = u r K R n k * t ^ k := by
    intro k
    have : r' = r * t := by rw [ht]; field_simp
    rw [u, u, this, mul_pow]; ring
  have key : ∀ k : ℕ, t ^ a * (1 + ((k:ℝ) - a) * Real.log t) ≤ t ^ k := by
    intro k
    have h1 : t ^ k = t ^ a * Real.exp (((k:ℝ) - a) * Real.log t) := by
      rw [sub_mul, Real.exp_sub, ← Real.log_pow, ← Real.log_pow, Real.exp_log (by positivity),
        Real.exp_log (by positivity)]
      field_simp
    rw [h1]
    refine mul_le_mul_of_nonneg_left ?_ (by positivity)
    have := Real.add_one_le_exp (((k:ℝ) - a) * Real.log t)
    linarith
  have h2 : t ^ a * Z r K R n ≤ Z r' K R n := by
    have h3 : ∑ k ∈ range (n + 1), u r K R n k * (t ^ a * (1 + ((k:ℝ) - a) * Real.log t)) ≤ Z r' K R n := by
      rw [Z]
      refine sum_le_sum fun k _ => ?_
      rw [hu]
      exact mul_le_mul_of_nonneg_left (key k) (u_nonneg hr)
    have h4 : ∑ k ∈ range (n + 1), (k:ℝ) * u r K R n k = a * Z r K R n := by
      have := G_div (K := K) (R := R) (n := n) (c := r) (fun k => (k:ℝ))
      rw [hm, eq_div_iff hZ.ne'] at this; exact this.symm
    have h5 : ∑ k ∈ range (n + 1), u r K R n k * (t ^ a * (1 + ((k:ℝ) - a) * Real.log t)) =
        t ^ a * Z r K R n + t ^ a * Real.log t * (∑ k ∈ range (n + 1), (k:ℝ) * u r K R n k - a * Z r K R n) := by
      rw [Z, mul_sum, mul_sum, ← sum_sub_distrib, mul_sum, ← sum_add_distrib]
      exact sum_congr rfl fun k _ => by ring
    rw [h5, h4, sub_self, mul_zero, add_zero] at h3
    exact h3
  rw [F, F, div_le_div_iff₀ hZ' hZ, hu]
  have := mul_le_mul_of_nonneg_left h2 (u_nonneg (K := K) (M := R) (n := n) (k := a) hr)
  linarith

end Mpsci.oddsRatio
