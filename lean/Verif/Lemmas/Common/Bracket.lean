import Verif.Model.Common.Bracket
import Verif.Spec.Bracket
import Mathlib.Algebra.Order.Floor.Semiring

namespace Mpsci.common

open Classical Num Spec

/-- The real number in a finite `Num`. -/
noncomputable def val : Num → ℝ
  | fin x => x
  | _ => 0
@[simp] theorem val_fin (x : ℝ) : val (fin x) = x := rfl

theorem ceil_lt {u v : ℝ} (h : u + 1 ≤ v) (hv : 0 < v) : ⌈u⌉₊ < ⌈v⌉₊ := by
  rcases le_or_gt 0 u with hu | hu
  · rw [← Nat.add_one_le_iff, ← Nat.ceil_add_one hu]
    exact Nat.ceil_mono h
  · rw [Nat.ceil_eq_zero.2 hu.le]
    exact Nat.ceil_pos.2 hv

theorem sign_eq_pos {d : ℝ} (hd : 0 < d) (e : ℝ) :
    (mp.sign (fin e) =. mp.sign (fin d)) ↔ 0 < e := by
  simp only [mp.sign, hd, if_true]
  split_ifs with h1 h2
  · simpa using h1
  · simp only [one_def, fin_eq, h1, iff_false]; norm_num
  · simp only [zero_def, one_def, fin_eq, h1, iff_false]; norm_num

theorem sign_eq_neg {d : ℝ} (hd : d < 0) (e : ℝ) :
    (mp.sign (fin e) =. mp.sign (fin d)) ↔ e < 0 := by
  simp only [mp.sign, hd, if_true, hd.not_gt, if_false]
  split_ifs with h1 h2
  · simp; constructor <;> intro h <;> linarith
  · simp [h2]
  · simp; linarith

/-- What the search uses about `func`: at points of `D` it can tell on which side of `x` a point
lies. -/
structure Tells (func : Num → M Num) (p sg : Num) (D : Set ℝ) (x : ℝ) : Prop where
  side : ∀ t ∈ D, ∃ y, func (fin t) = .ok y ∧ ((mp.sign (p - y) =. sg) ↔ t < x) ∧ (y =. p ↔ t = x)

variable {func : Num → M Num} {p sg a b : Num} {D : Set ℝ} {x : ℝ}

theorem bisectSteps_spec (hD : ∀ u ∈ D, ∀ v ∈ D, (u + v) / 2 ∈ D) (h : Tells func p sg D x)
    (n : ℕ) : ∀ x0 x1 : ℝ, x0 ∈ D → x1 ∈ D → x0 ≤ x → x ≤ x1 →
    ∃ lo hi, lo ∈ D ∧ hi ∈ D ∧ lo ≤ x ∧ x ≤ hi ∧ hi - lo ≤ (x1 - x0) / 2 ^ n ∧
      bisectSteps func p sg n (fin x0) (fin x1) = .ok (fin lo, fin hi) := by
  induction n with
  | zero =>
    intro x0 x1 h0 h1 h2 h3
    exact ⟨x0, x1, h0, h1, h2, h3, by simp, rfl⟩
  | succ n ih =>
    intro x0 x1 h0 h1 h2 h3
    obtain ⟨y, hy, hs, he⟩ := h.side _ (hD _ h0 _ h1)
    have hm : bisectSteps func p sg (n + 1) (fin x0) (fin x1) =
        (if y =. p then .ok (fin ((x0 + x1) / 2), fin ((x0 + x1) / 2))
         else if mp.sign (p - y) =. sg then bisectSteps func p sg n (fin ((x0 + x1) / 2)) (fin x1)
         else bisectSteps func p sg n (fin x0) (fin ((x0 + x1) / 2))) := by
      simp only [bisectSteps, fin_add, ofNat_def, fin_div_ofNat, ok_bind, hy, pure_eq_ok]
    have hpow : (0 : ℝ) < 2 ^ n := by positivity
    rw [hm, he, hs]
    by_cases h4 : (x0 + x1) / 2 = x
    · refine ⟨x, x, h4 ▸ hD _ h0 _ h1, h4 ▸ hD _ h0 _ h1, le_rfl, le_rfl, ?_, by simp [h4]⟩
      rw [sub_self]; apply div_nonneg <;> first | linarith | positivity
    · rcases lt_or_ge ((x0 + x1) / 2) x with h5 | h5
      · obtain ⟨lo, hi, a1, a2, a3, a4, a5, a6⟩ := ih _ x1 (hD _ h0 _ h1) h1 h5.le h3
        refine ⟨lo, hi, a1, a2, a3, a4, a5.trans (le_of_eq ?_), by rw [if_neg h4, if_pos h5, a6]⟩
        rw [pow_succ]; field_simp; ring
      · obtain ⟨lo, hi, a1, a2, a3, a4, a5, a6⟩ := ih x0 _ h0 (hD _ h0 _ h1) h2 h5
        refine ⟨lo, hi, a1, a2, a3, a4, a5.trans (le_of_eq ?_),
          by rw [if_neg h4, if_neg h5.not_gt, a6]⟩
        rw [pow_succ]; field_simp; ring

theorem startBracket_both (h : Tells func p sg Set.univ x) :
    ∃ N x0 x1, x0 ≤ x ∧ x ≤ x1 ∧
      ∀ fuel ≥ N, startBracket fuel func p sg ninf pinf = .ok (fin x0, fin x1) := by
  choose y hy hs _ using fun t => h.side t (Set.mem_univ t)
  obtain ⟨N, ⟨t0, t1⟩, ⟨r0, r1, e, ⟨hr0, hr1⟩⟩, h2, h3⟩ := loop_ends
    (cond := fun s : Num × Num => do return ¬ (mp.sign (p - (← func s.1)) =. sg))
    (step := fun s => return (2 * s.1, s.1))
    (fun s => ∃ r0 r1 : ℝ, s = (fin r0, fin r1) ∧ r0 ≤ -1 ∧ (r1 = 1 ∨ x ≤ r1))
    (fun s => ⌈val s.1 + 2 + |x|⌉₊) (fun s => ¬ val s.1 < x)
    (fun s => (fin (2 * val s.1), s.1))
    (by rintro s ⟨r0, r1, rfl, -⟩; simp [hy, hs])
    (by rintro s ⟨r0, r1, rfl, -⟩; simp)
    (by
      rintro s ⟨r0, r1, rfl, h1, -⟩ h2
      exact ⟨2 * r0, r0, by simp, by linarith, .inr (by simpa using h2)⟩)
    (by
      rintro s ⟨r0, r1, rfl, h1, -⟩ h2
      have := neg_abs_le x
      simp only [val_fin, not_lt] at h2
      apply ceil_lt <;> simp only [val_fin] <;> linarith)
    (s := (-1, 1)) ⟨-1, 1, by simp, le_rfl, .inl rfl⟩
  obtain ⟨rfl, rfl⟩ := Prod.mk.inj e
  simp only [val_fin, not_not] at h2
  obtain ⟨N', t1, ⟨r1', rfl, -⟩, h5, h6⟩ := loop_ends
    (cond := fun s : Num => do return mp.sign (p - (← func s)) =. sg)
    (step := fun s => return 2 * s)
    (fun s => ∃ r : ℝ, s = fin r ∧ (1 ≤ r ∨ x ≤ r))
    (fun s => ⌈1 + x - val s⌉₊) (fun s => val s < x) (fun s => fin (2 * val s))
    (by rintro s ⟨r, rfl, -⟩; simp [hy, hs])
    (by rintro s ⟨r, rfl, -⟩; simp)
    (by
      rintro s ⟨r, rfl, h1⟩ h2
      simp only [val_fin] at h2
      exact ⟨2 * r, rfl, .inl (by rcases h1 with h1 | h1 <;> linarith)⟩)
    (by
      rintro s ⟨r, rfl, h1⟩ h2
      simp only [val_fin] at h2
      apply ceil_lt <;> simp only [val_fin] <;> rcases h1 with h1 | h1 <;> linarith)
    (s := fin r1) ⟨r1, rfl, hr1.imp (fun h => h.ge) id⟩
  refine ⟨max N N', r0, r1', h2.le, by simpa using h5, fun n hn => ?_⟩
  have e1 := h3 n (le_trans (le_max_left _ _) hn)
  have e2 := h6 n (le_trans (le_max_right _ _) hn)
  simp only [startBracket, ninf_eq_ninf, pinf_eq_pinf, and_self, if_true]
  rw [e1]
  simp only [ok_bind]
  rw [e2]
  rfl

theorem startBracket_left {b : ℝ} (h : Tells func p sg (Set.Iic b) x) (hx : x ≤ b) :
    ∃ N x0 x1, x1 ≤ b ∧ x0 ≤ b ∧ x0 ≤ x ∧ x ≤ x1 ∧
      ∀ fuel ≥ N, startBracket fuel func p sg ninf (fin b) = .ok (fin x0, fin x1) := by
  choose! y hy hs _ using h.side
  obtain ⟨N, s, ⟨d, r0, r1, e, h0, h1, h2, h3⟩, h4, h5⟩ := loop_ends
    (cond := fun s : Num × Num × Num => do return ¬ (mp.sign (p - (← func s.2.1)) =. sg))
    (step := fun s => return (2 * s.1, fin b - 2 * s.1, s.2.1))
    (fun s => ∃ d r0 r1 : ℝ, s = (fin d, fin r0, fin r1) ∧ 1 ≤ d ∧ r0 = b - d ∧ r1 ≤ b ∧ x ≤ r1)
    (fun s => ⌈1 + b - x - val s.1⌉₊) (fun s => ¬ val s.2.1 < x)
    (fun s => (fin (2 * val s.1), fin (b - 2 * val s.1), s.2.1))
    (by
      rintro s ⟨d, r0, r1, rfl, h0, h1, -⟩
      have : r0 ∈ Set.Iic b := by simp only [Set.mem_Iic]; linarith
      simp [hy r0 this, hs r0 this])
    (by rintro s ⟨d, r0, r1, rfl, -⟩; simp)
    (by
      rintro s ⟨d, r0, r1, rfl, h0, h1, -⟩ h2
      exact ⟨2 * d, b - 2 * d, r0, by simp, by linarith, rfl, by linarith, by simpa using h2⟩)
    (by
      rintro s ⟨d, r0, r1, rfl, h0, h1, -⟩ h2
      simp only [val_fin, not_lt] at h2
      apply ceil_lt <;> simp only [val_fin] <;> linarith)
    (s := (1, fin b - 1, fin b)) ⟨1, b - 1, b, by simp, le_rfl, rfl, le_rfl, hx⟩
  subst e
  simp only [val_fin, not_not] at h4
  refine ⟨N, r0, r1, h2, by linarith, h4.le, h3, fun n hn => ?_⟩
  have e1 := h5 n hn
  simp only [startBracket, ninf_eq_ninf, fin_eq_pinf, and_false, if_false, if_true]
  rw [e1]
  rfl

theorem startBracket_right {a : ℝ} (h : Tells func p sg (Set.Ici a) x) (hx : a ≤ x) :
    ∃ N x0 x1, a ≤ x0 ∧ a ≤ x1 ∧ x0 ≤ x ∧ x ≤ x1 ∧
      ∀ fuel ≥ N, startBracket fuel func p sg (fin a) pinf = .ok (fin x0, fin x1) := by
  choose! y hy hs _ using h.side
  obtain ⟨N, s, ⟨d, r0, r1, e, h0, h1, h2, h3⟩, h4, h5⟩ := loop_ends
    (cond := fun s : Num × Num × Num => do return mp.sign (p - (← func s.2.2)) =. sg)
    (step := fun s => return (2 * s.1, s.2.2, fin a + 2 * s.1))
    (fun s => ∃ d r0 r1 : ℝ, s = (fin d, fin r0, fin r1) ∧ 1 ≤ d ∧ r1 = a + d ∧ a ≤ r0 ∧ r0 ≤ x)
    (fun s => ⌈1 + x - a - val s.1⌉₊) (fun s => val s.2.2 < x)
    (fun s => (fin (2 * val s.1), s.2.2, fin (a + 2 * val s.1)))
    (by
      rintro s ⟨d, r0, r1, rfl, h0, h1, -⟩
      have : r1 ∈ Set.Ici a := by simp only [Set.mem_Ici]; linarith
      simp [hy r1 this, hs r1 this])
    (by rintro s ⟨d, r0, r1, rfl, -⟩; simp)
    (by
      rintro s ⟨d, r0, r1, rfl, h0, h1, -⟩ h2
      simp only [val_fin] at h2
      exact ⟨2 * d, r1, a + 2 * d, by simp, by linarith, rfl, by linarith, h2.le⟩)
    (by
      rintro s ⟨d, r0, r1, rfl, h0, h1, -⟩ h2
      simp only [val_fin] at h2
      apply ceil_lt <;> simp only [val_fin] <;> linarith)
    (s := (1, fin a, fin a + 1)) ⟨1, a, a + 1, by simp, le_rfl, rfl, le_rfl, hx⟩
  subst e
  simp only [val_fin, not_lt] at h4
  refine ⟨N, r0, r1, h2, by linarith, h3, h4, fun n hn => ?_⟩
  have e1 := h5 n hn
  simp only [startBracket, fin_eq_ninf, false_and, if_false, pinf_eq_pinf, if_true]
  rw [e1]
  rfl

theorem dom_mid (a b : Num) : ∀ u ∈ dom a b, ∀ v ∈ dom a b, (u + v) / 2 ∈ dom a b := by
  rintro u ⟨h1, h2⟩ v ⟨h3, h4⟩
  constructor
  · cases a <;> simp_all; linarith
  · cases b <;> simp_all; linarith

/-- The search, from what it uses about `func`. -/
theorem findBracket_spec {pr x : ℝ} {pa pb : Num} (hab : a < b) (ha : func a = .ok pa)
    (hb : func b = .ok pb) (h : Tells func (fin pr) (mp.sign (pb - pa)) (dom a b) x)
    (hx : x ∈ dom a b) (hna : a = ninf → ¬ (fin pr =. pa)) (hnb : b = pinf → ¬ (fin pr =. pb))
    (nb : Option ℕ) :
    ∃ lo hi N, lo ∈ dom a b ∧ hi ∈ dom a b ∧ lo ≤ x ∧ x ≤ hi ∧
      (∀ u v : ℝ, a = fin u → b = fin v → hi - lo ≤ (v - u) / 2 ^ (nb.getD 8)) ∧
      ∀ fuel ≥ N, findBracket fuel func (fin pr) a b nb = .ok (fin lo, fin hi) := by
  by_cases hpa : fin pr =. pa
  · cases a with
    | fin a =>
      have ham : a ∈ dom (fin a) b := by
        refine ⟨by simp, ?_⟩
        cases b <;> simp_all; linarith
      obtain ⟨y, hy, -, he⟩ := h.side a ham
      rw [ha] at hy
      obtain rfl := Except.ok.inj hy
      have e1 : a = x := he.1 (by cases pa <;> simp_all)
      subst e1
      refine ⟨a, a, 0, ham, ham, le_rfl, le_rfl, ?_, fun n _ => ?_⟩
      · rintro u v e1 e2
        obtain rfl := fin_inj.1 e1
        subst e2
        rw [sub_self]; apply div_nonneg <;> [skip; positivity]
        have := hx.2; simp only [fin_le] at this; linarith
      · simp [findBracket, ha, hpa]
    | ninf => exact absurd hpa (hna rfl)
    | pinf => simp at hab
    | nan => simp at hab
  by_cases hpb : fin pr =. pb
  · cases b with
    | fin b =>
      have hbm : b ∈ dom a (fin b) := by
        refine ⟨?_, by simp⟩
        cases a <;> simp_all; linarith
      obtain ⟨y, hy, -, he⟩ := h.side b hbm
      rw [hb] at hy
      obtain rfl := Except.ok.inj hy
      have e1 : b = x := he.1 (by cases pb <;> simp_all)
      subst e1
      refine ⟨b, b, 0, hbm, hbm, le_rfl, le_rfl, ?_, fun n _ => ?_⟩
      · rintro u v e1 e2
        obtain rfl := fin_inj.1 e2
        subst e1
        rw [sub_self]; apply div_nonneg <;> [skip; positivity]
        have := hx.1; simp only [fin_le] at this; linarith
      · simp [findBracket, ha, hb, hpa, hpb]
    | pinf => exact absurd hpb (hnb rfl)
    | ninf => cases a <;> simp at hab
    | nan => cases a <;> simp at hab
  have key : ∃ N x0 x1, x0 ∈ dom a b ∧ x1 ∈ dom a b ∧ x0 ≤ x ∧ x ≤ x1 ∧
      (∀ u v : ℝ, a = fin u → b = fin v → x0 = u ∧ x1 = v) ∧ ∀ fuel ≥ N,
      startBracket fuel func (fin pr) (mp.sign (pb - pa)) a b = .ok (fin x0, fin x1) := by
    cases a with
    | fin a =>
      cases b with
      | fin b =>
        simp only [dom, Set.mem_setOf_eq, fin_le, fin_lt] at *
        exact ⟨0, a, b, ⟨le_rfl, hab.le⟩, ⟨hab.le, le_rfl⟩, hx.1, hx.2,
          fun u v e1 e2 => ⟨fin_inj.1 e1, fin_inj.1 e2⟩, fun n _ => by simp [startBracket]⟩
      | pinf =>
        have e : dom (fin a) pinf = Set.Ici a := by ext; simp [dom]
        rw [e] at h hx ⊢
        obtain ⟨N, x0, x1, h1, h2, h3, h4, h5⟩ := startBracket_right h hx
        exact ⟨N, x0, x1, h1, h2, h3, h4, by simp, h5⟩
      | ninf => simp at hab
      | nan => simp at hab
    | ninf =>
      cases b with
      | fin b =>
        have e : dom ninf (fin b) = Set.Iic b := by ext; simp [dom]
        rw [e] at h hx ⊢
        obtain ⟨N, x0, x1, h1, h2, h3, h4, h5⟩ := startBracket_left h hx
        exact ⟨N, x0, x1, h2, h1, h3, h4, by simp, h5⟩
      | pinf =>
        have e : dom ninf pinf = Set.univ := by ext; simp [dom]
        rw [e] at h hx ⊢
        obtain ⟨N, x0, x1, h3, h4, h5⟩ := startBracket_both h
        exact ⟨N, x0, x1, trivial, trivial, h3, h4, by simp, h5⟩
      | ninf => simp at hab
      | nan => simp at hab
    | pinf => simp at hab
    | nan => simp at hab
  obtain ⟨N, x0, x1, h1, h2, h3, h4, h5, h6⟩ := key
  obtain ⟨lo, hi, b1, b2, b3, b4, b5, b6⟩ :=
    bisectSteps_spec (dom_mid a b) h (nb.getD 8) x0 x1 h1 h2 h3 h4
  refine ⟨lo, hi, N, b1, b2, b3, b4, ?_, fun n hn => ?_⟩
  · intro u v e1 e2
    obtain ⟨rfl, rfl⟩ := h5 u v e1 e2
    exact b5
  · simp only [findBracket, ha, hb, ok_bind, hpa, hpb, if_false, h6 n hn, b6]

end Mpsci.common
