import Verif.Lemmas.DistTrans
import Verif.Base.Mp

/-! From statements about real functions to the specification predicates. -/

namespace Mpsci

open Classical Num Spec Set

theorem inverts_of {S : Set ℝ} {f inv : Num → M Num} {F Q : ℝ → ℝ}
    (hf : ∀ x ∈ S, f (fin x) = .ok (fin (F x)))
    (hi : ∀ p, 0 < p → p < 1 → inv (fin p) = .ok (fin (Q p)))
    (hQ : ∀ p, 0 < p → p < 1 → Q p ∈ S ∧ F (Q p) = p)
    (hF : ∀ x ∈ S, 0 < F x ∧ F x < 1 ∧ Q (F x) = x) : Inverts S f inv := by
  constructor
  · intro p h0 h1
    refine ⟨Q p, (hQ p h0 h1).1, hi p h0 h1, ?_⟩
    rw [hf _ (hQ p h0 h1).1, (hQ p h0 h1).2]
  · intro x hx
    obtain ⟨h0, h1, h2⟩ := hF x hx
    refine ⟨F x, h0, h1, hf x hx, ?_⟩
    rw [hi _ h0 h1, h2]

/-- Version for a survival function when the quantile of `sf` at `p` is the quantile of `cdf`
at `1 - p`. -/
theorem inverts_compl {S : Set ℝ} {f inv : Num → M Num} {F Q : ℝ → ℝ}
    (hf : ∀ x ∈ S, f (fin x) = .ok (fin (1 - F x)))
    (hi : ∀ p, 0 < p → p < 1 → inv (fin p) = .ok (fin (Q (1 - p))))
    (hQ : ∀ p, 0 < p → p < 1 → Q p ∈ S ∧ F (Q p) = p)
    (hF : ∀ x ∈ S, 0 < F x ∧ F x < 1 ∧ Q (F x) = x) : Inverts S f inv := by
  refine inverts_of (F := fun x => 1 - F x) (Q := fun p => Q (1 - p)) hf hi ?_ ?_
  · intro p h0 h1
    obtain ⟨a, b⟩ := hQ (1 - p) (by linarith) (by linarith)
    exact ⟨a, by simp only [b]; ring⟩
  · intro x hx
    obtain ⟨a, b, c⟩ := hF x hx
    refine ⟨by linarith, by linarith, ?_⟩
    simp only [sub_sub_cancel, c]

theorem complementary_of {cdf sf : Num → M Num} {F : ℝ → ℝ} (hc : RealFn cdf F)
    (hs : RealFn sf fun x => 1 - F x) : Complementary cdf sf :=
  fun x => ⟨_, _, hc x, hs x, by ring⟩

theorem affine_le_zero {x loc s : ℝ} (hs : 0 < s) : (x - loc) / s ≤ 0 ↔ x ≤ loc := by
  rw [div_le_iff₀ hs]; simp
theorem affine_lt_zero {x loc s : ℝ} (hs : 0 < s) : (x - loc) / s < 0 ↔ x < loc := by
  rw [div_lt_iff₀ hs]; simp
theorem affine_eq_zero {x loc s : ℝ} (hs : 0 < s) : (x - loc) / s = 0 ↔ x = loc := by
  rw [div_eq_zero_iff, sub_eq_zero]; simp [hs.ne']
theorem affine_ge_zero {x loc s : ℝ} (hs : 0 < s) : 0 ≤ (x - loc) / s ↔ loc ≤ x := by
  rw [le_div_iff₀ hs]; simp
theorem affine_gt_zero {x loc s : ℝ} (hs : 0 < s) : 0 < (x - loc) / s ↔ loc < x := by
  rw [lt_div_iff₀ hs]; simp

theorem not_and_pos {a b : ℝ} (h : ¬ (0 < a ∧ 0 < b)) : a ≤ 0 ∨ b ≤ 0 := by
  by_contra h'; push Not at h'; exact h h'

end Mpsci

namespace Mpsci
open Classical Num Spec Set

theorem locScale_of_std {g : Num → Num → Num → M Num} {G : ℝ → ℝ}
    (h : ∀ x loc s : ℝ, 0 < s → g (fin x) (fin loc) (fin s) = .ok (fin (G ((x - loc) / s)))) :
    LocScaleInvariant g := by
  intro x loc s hs
  rw [h x loc s hs, zero_def, one_def, h _ 0 1 one_pos, sub_zero, div_one]

theorem locScaleDensity_of_std {g : Num → Num → Num → M Num} {f : ℝ → ℝ}
    (h : ∀ x loc s : ℝ, 0 < s →
      g (fin x) (fin loc) (fin s) = .ok (fin (f ((x - loc) / s) / s))) :
    LocScaleDensity g := by
  intro x loc s hs
  rw [h x loc s hs, zero_def, one_def, h _ 0 1 one_pos, sub_zero, div_one, ok_bind,
    fin_div _ hs.ne', div_one]

theorem inverts_affine {S : Set ℝ} {f inv : Num → M Num} {F Q : ℝ → ℝ} {loc s : ℝ} (hs : 0 < s)
    (hf : ∀ x, (x - loc) / s ∈ S → f (fin x) = .ok (fin (F ((x - loc) / s))))
    (hi : ∀ p, 0 < p → p < 1 → inv (fin p) = .ok (fin (loc + s * Q p)))
    (hQ : ∀ p, 0 < p → p < 1 → Q p ∈ S ∧ F (Q p) = p)
    (hF : ∀ z ∈ S, 0 < F z ∧ F z < 1 ∧ Q (F z) = z) :
    Inverts ((fun x => (x - loc) / s) ⁻¹' S) f inv := by
  refine inverts_of (F := fun x => F ((x - loc) / s)) (Q := fun p => loc + s * Q p)
    (fun x hx => hf x hx) hi ?_ ?_
  · intro p h0 h1
    have e : (loc + s * Q p - loc) / s = Q p := by field_simp; ring
    simp only [mem_preimage, e]
    exact hQ p h0 h1
  · intro x hx
    obtain ⟨a, b, c⟩ := hF _ hx
    refine ⟨a, b, ?_⟩
    simp only [c]; field_simp; ring

/-- The same for a survival function whose quantile at `p` is the cdf quantile at `1 - p`. -/
theorem inverts_affine_compl {S : Set ℝ} {f inv : Num → M Num} {F Q : ℝ → ℝ} {loc s : ℝ}
    (hs : 0 < s)
    (hf : ∀ x, (x - loc) / s ∈ S → f (fin x) = .ok (fin (1 - F ((x - loc) / s))))
    (hi : ∀ p, 0 < p → p < 1 → inv (fin p) = .ok (fin (loc + s * Q (1 - p))))
    (hQ : ∀ p, 0 < p → p < 1 → Q p ∈ S ∧ F (Q p) = p)
    (hF : ∀ z ∈ S, 0 < F z ∧ F z < 1 ∧ Q (F z) = z) :
    Inverts ((fun x => (x - loc) / s) ⁻¹' S) f inv := by
  refine inverts_affine (F := fun z => 1 - F z) (Q := fun p => Q (1 - p)) hs hf hi ?_ ?_
  · intro p h0 h1
    obtain ⟨a, b⟩ := hQ (1 - p) (by linarith) (by linarith)
    exact ⟨a, by simp only [b]; ring⟩
  · intro z hz
    obtain ⟨a, b, c⟩ := hF z hz
    exact ⟨by linarith, by linarith, by simp only [sub_sub_cancel, c]⟩

end Mpsci

namespace Mpsci
open Classical Num Spec Set

/-- Positive densities on the whole line. -/
theorem isLogOf_pos {E : Set ℝ} {f logf : Num → M Num} {g : ℝ → ℝ} (hpos : ∀ x, x ∉ E → 0 < g x)
    (h1 : ∀ x : ℝ, x ∉ E → f (fin x) = .ok (fin (g x)))
    (h2 : ∀ x : ℝ, x ∉ E → logf (fin x) = .ok (fin (Real.log (g x)))) : IsLogOf E f logf :=
  fun x hx => ⟨_, (hpos x hx).le, h1 x hx, by rw [if_neg (hpos x hx).ne', h2 x hx]⟩

theorem isMode_of {E : Set ℝ} {pdf : Num → M Num} {mode : M Num} {f : ℝ → ℝ} {m : ℝ}
    (hm : mode = .ok (fin m)) (hp : ∀ x : ℝ, x ∉ E → pdf (fin x) = .ok (fin (f x))) (hmE : m ∉ E)
    (h : ∀ y, y ∉ E → f y ≤ f m) : IsMode E pdf mode :=
  ⟨m, _, hm, hp m hmE, fun y hy => ⟨_, hp y hy, h y hy⟩⟩

end Mpsci

namespace Mpsci
open Classical Num Spec Set

theorem IsDist.scale {F f : ℝ → ℝ} (h : IsDist F f) {s : ℝ} (hs : 0 < s) :
    IsDist (fun x => F (x / s)) (fun x => f (x / s) / s) := by
  simpa using h.affine 0 hs

theorem scale_of_std {g : Num → Num → M Num} {G : ℝ → ℝ}
    (h : ∀ x s : ℝ, 0 < s → g (fin x) (fin s) = .ok (fin (G (x / s)))) : ScaleInvariant g := by
  intro x s hs
  rw [h x s hs, one_def, h _ 1 one_pos, div_one]

theorem scaleDensity_of_std {g : Num → Num → M Num} {f : ℝ → ℝ}
    (h : ∀ x s : ℝ, 0 < s → g (fin x) (fin s) = .ok (fin (f (x / s) / s))) : ScaleDensity g := by
  intro x s hs
  rw [h x s hs, one_def, h _ 1 one_pos, div_one, ok_bind, fin_div _ hs.ne', div_one]

theorem inverts_scale {S : Set ℝ} {f inv : Num → M Num} {F Q : ℝ → ℝ} {s : ℝ} (hs : 0 < s)
    (hf : ∀ x, x / s ∈ S → f (fin x) = .ok (fin (F (x / s))))
    (hi : ∀ p, 0 < p → p < 1 → inv (fin p) = .ok (fin (s * Q p)))
    (hQ : ∀ p, 0 < p → p < 1 → Q p ∈ S ∧ F (Q p) = p)
    (hF : ∀ z ∈ S, 0 < F z ∧ F z < 1 ∧ Q (F z) = z) :
    Inverts ((fun x => x / s) ⁻¹' S) f inv := by
  simpa using inverts_affine (loc := 0) hs (by simpa using hf) (by simpa using hi) hQ hF

theorem inverts_scale_compl {S : Set ℝ} {f inv : Num → M Num} {F Q : ℝ → ℝ} {s : ℝ} (hs : 0 < s)
    (hf : ∀ x, x / s ∈ S → f (fin x) = .ok (fin (1 - F (x / s))))
    (hi : ∀ p, 0 < p → p < 1 → inv (fin p) = .ok (fin (s * Q (1 - p))))
    (hQ : ∀ p, 0 < p → p < 1 → Q p ∈ S ∧ F (Q p) = p)
    (hF : ∀ z ∈ S, 0 < F z ∧ F z < 1 ∧ Q (F z) = z) :
    Inverts ((fun x => x / s) ⁻¹' S) f inv := by
  simpa using inverts_affine_compl (loc := 0) hs (by simpa using hf) (by simpa using hi) hQ hF

theorem preimage_affine_Ioi {loc s : ℝ} (hs : 0 < s) (a : ℝ) :
    (fun x => (x - loc) / s) ⁻¹' Ioi a = Ioi (loc + s * a) := by
  ext x; simp only [mem_preimage, mem_Ioi, lt_div_iff₀ hs]
  constructor <;> intro h <;> linarith
theorem preimage_affine_Ioi_zero {loc s : ℝ} (hs : 0 < s) :
    (fun x => (x - loc) / s) ⁻¹' Ioi 0 = Ioi loc := by simp [preimage_affine_Ioi hs]
theorem preimage_scale_Ioi {s : ℝ} (hs : 0 < s) (a : ℝ) :
    (fun x => x / s) ⁻¹' Ioi a = Ioi (s * a) := by
  ext x; simp only [mem_preimage, mem_Ioi, lt_div_iff₀ hs, mul_comm]
theorem preimage_scale_Ioi_zero {s : ℝ} (hs : 0 < s) :
    (fun x => x / s) ⁻¹' Ioi 0 = Ioi 0 := by simp [preimage_scale_Ioi hs]

theorem scale_le_zero {x s : ℝ} (hs : 0 < s) : x / s ≤ 0 ↔ x ≤ 0 := by
  rw [div_le_iff₀ hs]; simp
theorem scale_lt_zero {x s : ℝ} (hs : 0 < s) : x / s < 0 ↔ x < 0 := by
  rw [div_lt_iff₀ hs]; simp

theorem mp_log1p_neg {p : ℝ} (h1 : p < 1) :
    mp.log1p (fin (-p)) = .ok (fin (Real.log (1 - p))) := by
  rw [mp.log1p_pos (by linarith)]; rfl
@[simp] theorem mp_log1p_zero : mp.log1p (fin 0) = .ok (fin 0) := by
  rw [mp.log1p_pos (by norm_num)]; simp
@[simp] theorem mp_log_one : mp.log (fin 1) = .ok (fin 0) := by
  rw [mp.log_pos (by norm_num)]; simp

theorem isMedian_of {cdf : Num → M Num} {median : M Num} {m : ℝ}
    (h1 : median = .ok (fin m)) (h2 : cdf (fin m) = .ok (fin (1 / 2))) : IsMedian cdf median :=
  ⟨m, h1, h2⟩

/-- `x**y` for a nonnegative base, when it is not 0 to a negative power. -/
theorem power_of_nonneg {x y : ℝ} (hx : 0 ≤ x) (h : x = 0 → 0 ≤ y) :
    mp.power (fin x) (fin y) = .ok (fin (x ^ y)) := by
  rcases hx.eq_or_lt with rfl | hx
  · rcases (h rfl).eq_or_lt with rfl | h
    · simp
    · rw [mp.power_zero_pos h, Real.zero_rpow h.ne']
  · exact mp.power_pos hx y
theorem powm1_of_nonneg {x y : ℝ} (hx : 0 ≤ x) (h : 0 < y) :
    mp.powm1 (fin x) (fin y) = .ok (fin (x ^ y - 1)) := by
  simp [mp.powm1, mp.power_nonneg hx h]

/-- Densities that are positive on `P` and zero off it. -/
theorem isLogOf_of {E P : Set ℝ} {f logf : Num → M Num} {g : ℝ → ℝ}
    (hpos : ∀ x, x ∉ E → x ∈ P → 0 < g x) (hzero : ∀ x, x ∉ E → x ∉ P → g x = 0)
    (h1 : ∀ x : ℝ, x ∉ E → f (fin x) = .ok (fin (g x)))
    (h2 : ∀ x : ℝ, x ∉ E → x ∈ P → logf (fin x) = .ok (fin (Real.log (g x))))
    (h3 : ∀ x : ℝ, x ∉ E → x ∉ P → logf (fin x) = .ok ninf) : IsLogOf E f logf := by
  intro x hx
  by_cases hP : x ∈ P
  · have := hpos x hx hP
    exact ⟨_, this.le, h1 x hx, by rw [if_neg this.ne', h2 x hx hP]⟩
  · have := hzero x hx hP
    exact ⟨_, this.ge, h1 x hx, by rw [if_pos this, h3 x hx hP]⟩

end Mpsci
