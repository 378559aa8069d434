import Verif.Lemmas.Quantile

/-! Moments of all orders, skewness and kurtosis from the quantile function. -/

namespace Mpsci

open Num Spec MeasureTheory Set

variable {F f Y : ℝ → ℝ} {a b M1 M2 M3 M4 : ℝ} {E : Set ℝ} {pdf : Num → M Num} {r : M Num}

theorem Int01.sum {ι : Type} (s : Finset ι) {g : ι → ℝ → ℝ} {v : ι → ℝ} (h : ∀ i ∈ s, Int01 (g i) (v i)) :
    Int01 (fun p => ∑ i ∈ s, g i p) (∑ i ∈ s, v i) := by
  classical
  induction s using Finset.induction_on with
  | empty => simpa using Int01.const 0
  | insert i s hi ih =>
    simp only [Finset.sum_insert hi]
    exact (h i (by simp)).add (ih fun j hj => h j (by simp [hj]))

theorem isMoment_of_int01 {n : ℕ} {v : ℝ} {Q : ℝ → ℝ} (hE : E.Finite) (hf : RealFnOff E pdf f) (hd : IsDist F f)
    (hQ : ∀ p, 0 < p → p < 1 → F (Q p) = p) (h : Int01 (fun p => Q p ^ n) v) (hr : r = .ok (fin v)) :
    IsMoment E pdf n r := by
  obtain ⟨h1, h2⟩ := hd.expect hQ (h := fun x => x ^ n) (by fun_prop)
  exact ⟨hE, f, v, hf, hr, h1.1 h.1, h2 ▸ h.2⟩

/-- A density has positive variance. -/
theorem var_pos (hd : IsDist F f) {m v : ℝ} (hf : ∀ x, 0 ≤ f x) (hi : Integrable fun x => (x - m) ^ 2 * f x)
    (hv : ∫ x, (x - m) ^ 2 * f x = v) : 0 < v := by
  have h0 : 0 ≤ v := by rw [← hv]; exact integral_nonneg fun x => mul_nonneg (sq_nonneg _) (hf x)
  refine h0.lt_of_ne fun e => ?_
  rw [← e, integral_eq_zero_iff_of_nonneg (fun x => mul_nonneg (sq_nonneg _) (hf x)) hi] at hv
  have : f =ᵐ[volume] 0 := by
    have h1 : ∀ᵐ x : ℝ, x ≠ m := by simp [ae_iff, measure_singleton]
    filter_upwards [hv, h1] with x hx hm
    have : (x - m) ^ 2 ≠ 0 := pow_ne_zero _ (sub_ne_zero.2 hm)
    simpa [this] using hx
  have h2 := hd.integral_one
  rw [integral_congr_ae this] at h2
  simp at h2

theorem int01_affine1 (h1 : Int01 Y M1) : Int01 (fun p => a + b * Y p) (a + b * M1) :=
  (Int01.const a).add (h1.mul b)

/-- First and second moments of `a + b Y`. -/
theorem hasMV_of_affine (hd : IsDist F f) (hQ : ∀ p, 0 < p → p < 1 → F (a + b * Y p) = p)
    (h1 : Int01 Y M1) (h2 : Int01 (fun p => Y p ^ 2) M2) :
    HasMV f (a + b * M1) (b ^ 2 * (M2 - M1 ^ 2)) := by
  refine HasMV.of_int01 hd hQ (int01_affine1 h1) (w := a ^ 2 + 2 * a * b * M1 + b ^ 2 * M2) ?_ (by ring)
  refine (((Int01.const (a ^ 2)).add (h1.mul (2 * a * b))).add (h2.mul (b ^ 2))).congr fun p _ _ => ?_
  ring

theorem isSkewness_of (hE : E.Finite) (hf : RealFnOff E pdf f) (hd : IsDist F f) (h0 : ∀ x, 0 ≤ f x)
    (hQ : ∀ p, 0 < p → p < 1 → F (a + b * Y p) = p) (h1 : Int01 Y M1) (h2 : Int01 (fun p => Y p ^ 2) M2)
    (h3 : Int01 (fun p => Y p ^ 3) M3)
    (hr : 0 < b ^ 2 * (M2 - M1 ^ 2) →
      r = .ok (fin (b ^ 3 * (M3 - 3 * M2 * M1 + 2 * M1 ^ 3) / (b ^ 2 * (M2 - M1 ^ 2)) ^ (3 / 2 : ℝ)))) :
    IsSkewness E pdf r := by
  have h := hasMV_of_affine hd hQ h1 h2
  have hv := var_pos hd h0 (h.int_var _) h.var
  obtain ⟨a3, b3⟩ := hd.expect hQ (h := fun x => (x - (a + b * M1)) ^ 3) (by fun_prop)
  have h4 : Int01 (fun p => (a + b * Y p - (a + b * M1)) ^ 3) (b ^ 3 * (M3 - 3 * M2 * M1 + 2 * M1 ^ 3)) := by
    have := (((h3.sub (h2.mul (3 * M1))).add (h1.mul (3 * M1 ^ 2))).sub (Int01.const (M1 ^ 3))).mul (b ^ 3)
    rw [show b ^ 3 * (M3 - 3 * M1 * M2 + 3 * M1 ^ 2 * M1 - M1 ^ 3) = b ^ 3 * (M3 - 3 * M2 * M1 + 2 * M1 ^ 3) by ring] at this
    exact this.congr fun p _ _ => by ring
  exact ⟨hE, f, _, _, _, hf, h.int1, h.mean, h.int_var _, h.var, a3.1 h4.1, b3 ▸ h4.2, hv, hr hv⟩

theorem isKurtosis_of (hE : E.Finite) (hf : RealFnOff E pdf f) (hd : IsDist F f) (h0 : ∀ x, 0 ≤ f x)
    (hQ : ∀ p, 0 < p → p < 1 → F (a + b * Y p) = p) (h1 : Int01 Y M1) (h2 : Int01 (fun p => Y p ^ 2) M2)
    (h3 : Int01 (fun p => Y p ^ 3) M3) (h4 : Int01 (fun p => Y p ^ 4) M4)
    (hr : b ≠ 0 → 0 < M2 - M1 ^ 2 →
      r = .ok (fin ((M4 - 4 * M3 * M1 + 6 * M2 * M1 ^ 2 - 3 * M1 ^ 4) / (M2 - M1 ^ 2) ^ 2 - 3))) :
    IsKurtosis E pdf r := by
  have h := hasMV_of_affine hd hQ h1 h2
  have hv := var_pos hd h0 (h.int_var _) h.var
  have hb : b ≠ 0 := by rintro rfl; simp at hv
  have hm : 0 < M2 - M1 ^ 2 := (mul_pos_iff_of_pos_left (by positivity)).1 hv
  obtain ⟨a3, b3⟩ := hd.expect hQ (h := fun x => (x - (a + b * M1)) ^ 4) (by fun_prop)
  have h5 : Int01 (fun p => (a + b * Y p - (a + b * M1)) ^ 4)
      (b ^ 4 * (M4 - 4 * M3 * M1 + 6 * M2 * M1 ^ 2 - 3 * M1 ^ 4)) := by
    have := ((((h4.sub (h3.mul (4 * M1))).add (h2.mul (6 * M1 ^ 2))).sub (h1.mul (4 * M1 ^ 3))).add
      (Int01.const (M1 ^ 4))).mul (b ^ 4)
    rw [show b ^ 4 * (M4 - 4 * M1 * M3 + 6 * M1 ^ 2 * M2 - 4 * M1 ^ 3 * M1 + M1 ^ 4) =
      b ^ 4 * (M4 - 4 * M3 * M1 + 6 * M2 * M1 ^ 2 - 3 * M1 ^ 4) by ring] at this
    exact this.congr fun p _ _ => by ring
  refine ⟨hE, f, _, _, _, hf, h.int1, h.mean, h.int_var _, h.var, a3.1 h5.1, b3 ▸ h5.2, hv, ?_⟩
  rw [hr hb hm]
  congr 3
  rw [mul_pow, ← pow_mul, mul_div_mul_left _ _ (pow_ne_zero _ hb)]

end Mpsci
