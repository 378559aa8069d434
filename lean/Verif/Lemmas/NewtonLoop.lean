import Verif.Model.Common.Newton
import Verif.Spec.Search
import Mathlib.Analysis.Calculus.MeanValue
import Mathlib.Algebra.Order.Floor.Semiring

/-! Newton's method for a distribution function, started at the mode. -/

namespace Mpsci

open Classical Num Spec Set

namespace common

private def rv : Num → ℝ
  | fin x => x
  | _ => 0

private theorem rv_fin (x : ℝ) : rv (fin x) = x := rfl

theorem almosteq_bound {eps s t B : ℝ} (he : 0 ≤ eps) (h : mp.almosteqD eps (fin s) (fin t)) (hs : |s| ≤ B) (ht : |t| ≤ B) :
    |s - t| ≤ eps * max 1 B := by
  have hB : B ≤ max 1 B := le_max_right _ _
  have h1 : 1 ≤ max 1 B := le_max_left _ _
  rcases h with h | h
  · nlinarith
  · split_ifs at h with hc
    · have h0 : 0 < |t| := (abs_nonneg s).trans_lt hc
      rw [div_le_iff₀ h0] at h
      exact h.trans (mul_le_mul_of_nonneg_left (ht.trans hB) he)
    · rcases (abs_nonneg s).eq_or_lt with h0 | h0
      · have h2 : |t| = 0 := le_antisymm (h0 ▸ not_lt.1 hc) (abs_nonneg t)
        rw [abs_eq_zero.1 h0.symm, abs_eq_zero.1 h2, sub_self, abs_zero]; positivity
      · rw [div_le_iff₀ h0] at h
        exact h.trans (mul_le_mul_of_nonneg_left (hs.trans hB) he)

/-- If every step goes towards `r` without passing it, the loop ends. -/
theorem newtonLoop_ends {step : Num → M Num} {N : ℝ → ℝ} {m r eps : ℝ} (he : 0 < eps)
    (hs : ∀ x ∈ uIcc m r, step (fin x) = .ok (fin (N x))) (hN : ∀ x ∈ uIcc m r, N x ∈ uIcc x r) :
    ∃ x ∈ uIcc m r, mp.almosteqD eps (fin (N x)) (fin x) ∧ Reaches (fun fuel => newtonLoop eps fuel step (fin m)) (fin (N x)) := by
  obtain ⟨K, t, ⟨x, rfl, hx⟩, h2, h3⟩ := loop_ends (cond := fun x => do return ¬ mp.almosteqD eps (← step x) x) (step := step)
    (fun s => ∃ x : ℝ, s = fin x ∧ x ∈ uIcc m r) (fun s => ⌈|r - rv s| / eps⌉₊)
    (fun s => ¬ mp.almosteqD eps (fin (N (rv s))) s) (fun s => fin (N (rv s)))
    (by rintro s ⟨x, rfl, hx⟩; simp only [hs x hx, ok_bind, pure_eq_ok, rv_fin])
    (by rintro s ⟨x, rfl, hx⟩ -; exact hs x hx)
    (by rintro s ⟨x, rfl, hx⟩ -; exact ⟨_, rfl, uIcc_subset_uIcc hx right_mem_uIcc (hN x hx)⟩)
    (by
      rintro s ⟨x, rfl, hx⟩ hC
      simp only [rv_fin] at hC ⊢
      have h1 : eps < |N x - x| := by
        by_contra h; exact hC (Or.inl (not_lt.1 h))
      have h2 : |N x - x| + |r - N x| = |r - x| := by
        rcases le_total x r with h | h
        · have := hN x hx
          rw [uIcc_of_le h] at this
          rw [abs_of_nonneg (by linarith [this.1]), abs_of_nonneg (by linarith [this.2]), abs_of_nonneg (by linarith)]; ring
        · have := hN x hx
          rw [uIcc_of_ge h] at this
          rw [abs_of_nonpos (by linarith [this.2]), abs_of_nonpos (by linarith [this.1]), abs_of_nonpos (by linarith)]; ring
      have h3 : |r - N x| / eps + 1 ≤ |r - x| / eps := by
        rw [← h2, add_div]
        have : 1 ≤ |N x - x| / eps := by rw [one_le_div he]; exact h1.le
        linarith
      have h4 : 0 ≤ |r - N x| / eps := by positivity
      have h5 : ⌈|r - N x| / eps⌉₊ + 1 ≤ ⌈|r - x| / eps⌉₊ := by
        rw [← Nat.ceil_add_one h4]; exact Nat.ceil_mono h3
      omega)
    (s := fin m) ⟨m, rfl, left_mem_uIcc⟩
  simp only [rv_fin, not_not] at h2
  refine ⟨x, hx, h2, K, fun fuel hn => ?_⟩
  simp only [newtonLoop, h3 fuel hn, ok_bind, hs x hx]

variable {F f : ℝ → ℝ} {a m r p : ℝ}

/-- One step towards the quantile `r`, for a unimodal density with mode `m`. -/
theorem newton_step (hm : a < m) (hr : a < r) (hd : ∀ x, a < x → HasDerivAt F (f x) x) (hf : ∀ x, a < x → 0 < f x)
    (h1 : ∀ x y, a < x → x ≤ y → y ≤ m → f x ≤ f y) (h2 : ∀ x y, m ≤ x → x ≤ y → f y ≤ f x) (hp : F r = p)
    {x : ℝ} (hx : x ∈ uIcc m r) : x + (p - F x) / f x ∈ uIcc x r := by
  have hx0 : a < x := lt_of_lt_of_le (lt_min hm hr) hx.1
  have hfx := hf x hx0
  rcases lt_trichotomy x r with h | h | h
  · have hmx : m ≤ x := by
      by_contra hc
      have := hx.1
      rw [min_le_iff] at this
      rcases this with h' | h'
      · exact hc h'
      · linarith
    obtain ⟨c, hc, e⟩ := exists_hasDerivAt_eq_slope F f h (fun t ht => (hd t (hx0.trans_le ht.1)).continuousAt.continuousWithinAt)
      fun t ht => hd t (hx0.trans ht.1)
    have h3 : 0 < r - x := by linarith
    rw [eq_div_iff h3.ne', hp] at e
    have h4 := h2 x c hmx hc.1.le
    have h5 := hf c (hx0.trans hc.1)
    rw [uIcc_of_le h.le, ← e]
    refine ⟨le_add_of_nonneg_right (by positivity), ?_⟩
    have : f c * (r - x) / f x ≤ r - x := by
      rw [div_le_iff₀ hfx]; nlinarith
    linarith
  · subst h; simp [hp]
  · have hmx : x ≤ m := by
      by_contra hc
      have := hx.2
      rw [le_max_iff] at this
      rcases this with h' | h'
      · exact hc h'
      · linarith
    obtain ⟨c, hc, e⟩ := exists_hasDerivAt_eq_slope F f h (fun t ht => (hd t (hr.trans_le ht.1)).continuousAt.continuousWithinAt)
      fun t ht => hd t (hr.trans ht.1)
    have h3 : 0 < x - r := by linarith
    rw [eq_div_iff h3.ne', hp] at e
    have h4 := h1 c x (hr.trans hc.1) hc.2.le hmx
    have h5 := hf c (hr.trans hc.1)
    rw [uIcc_of_ge h.le, show p - F x = -(f c * (x - r)) by rw [e]; ring, neg_div]
    have h6 : f c * (x - r) / f x ≤ x - r := by
      rw [div_le_iff₀ hfx]; nlinarith
    have h7 : 0 ≤ f c * (x - r) / f x := by positivity
    exact ⟨by linarith, by linarith⟩

/-- The value found. -/
theorem newtonLoop_spec {step : Num → M Num} {eps : ℝ} (he : 0 < eps)
    (hm : a < m) (hr : a < r) (hd : ∀ x, a < x → HasDerivAt F (f x) x) (hf : ∀ x, a < x → 0 < f x)
    (h1 : ∀ x y, a < x → x ≤ y → y ≤ m → f x ≤ f y) (h2 : ∀ x y, m ≤ x → x ≤ y → f y ≤ f x) (hp : F r = p)
    (hs : ∀ x, a < x → step (fin x) = .ok (fin (x + (p - F x) / f x))) :
    ∃ y, a < y ∧ y ∈ uIcc m r ∧ Reaches (fun fuel => newtonLoop eps fuel step (fin m)) (fin y) ∧
      |F y - p| ≤ eps * f m * max 1 (max |m| |r|) := by
  have pos : ∀ x ∈ uIcc m r, a < x := fun x hx => lt_of_lt_of_le (lt_min hm hr) hx.1
  obtain ⟨x, hx, h3, h4⟩ := newtonLoop_ends he (fun x hx => hs x (pos x hx))
    fun x hx => newton_step hm hr hd hf h1 h2 hp hx
  have h5 := newton_step hm hr hd hf h1 h2 hp hx
  have h6 := uIcc_subset_uIcc hx right_mem_uIcc h5
  refine ⟨_, pos _ h6, h6, h4, ?_⟩
  have hx0 := pos x hx
  have hfx := hf x hx0
  have mono : ∀ u v, a < u → u ≤ v → F u ≤ F v := by
    have : MonotoneOn F (Ioi a) := by
      refine monotoneOn_of_deriv_nonneg (convex_Ioi a) (fun t ht => (hd t ht).continuousAt.continuousWithinAt)
        (fun t ht => (hd t (by rwa [interior_Ioi] at ht)).differentiableAt.differentiableWithinAt) fun t ht => ?_
      rw [interior_Ioi] at ht
      rw [(hd t ht).deriv]; exact (hf t ht).le
    exact fun u v hu h => this hu (lt_of_lt_of_le hu h) h
  set y := x + (p - F x) / f x with hy
  have hb : ∀ u ∈ uIcc m r, |u| ≤ max |m| |r| := fun u hu => by
    rcases le_total m r with h | h
    · rw [uIcc_of_le h] at hu; exact abs_le_max_abs_abs hu.1 hu.2
    · rw [uIcc_of_ge h] at hu; rw [max_comm]; exact abs_le_max_abs_abs hu.1 hu.2
  have h7 := almosteq_bound he.le h3 (hb y h6) (hb x hx)
  have h8 : y - x = (p - F x) / f x := by rw [hy]; ring
  have h9 : |F y - p| ≤ |F x - p| := by
    rcases le_total x r with h | h
    · rw [uIcc_of_le h] at h5
      have m1 := mono x y hx0 h5.1
      have m2 := mono y r (pos y h6) h5.2
      rw [abs_of_nonpos (by linarith), abs_of_nonpos (by linarith)]; linarith
    · rw [uIcc_of_ge h] at h5
      have m1 := mono r y hr h5.1
      have m2 := mono y x (pos y h6) h5.2
      rw [abs_of_nonneg (by linarith), abs_of_nonneg (by linarith)]; linarith
  have h10 : |F x - p| = f x * |y - x| := by
    rw [h8, abs_div, abs_of_pos hfx, mul_div_cancel₀ _ hfx.ne', abs_sub_comm]
  have h11 : f x ≤ f m := by
    rcases le_total x m with h | h
    · exact h1 x m hx0 h le_rfl
    · exact h2 m x le_rfl h
  calc |F y - p| ≤ f x * |y - x| := h10 ▸ h9
    _ ≤ f m * (eps * max 1 (max |m| |r|)) := mul_le_mul h11 h7 (abs_nonneg _) (hf m hm).le
    _ = _ := by ring

end common

end Mpsci
