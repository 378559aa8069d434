import Verif.Model.Stats.Boxcox
import Verif.Lemmas.Fun.Powm1

namespace Mpsci.stats

open Classical Num fun_

/-- The Box-Cox transformation on positive reals. -/
noncomputable def bc (l x : ℝ) : ℝ := if l = 0 then Real.log x else (x ^ l - 1) / l
noncomputable def bcInv (l y : ℝ) : ℝ := if l = 0 then Real.exp y else (1 + l * y) ^ (1 / l)

theorem boxcox_eval {x : ℝ} (l : ℝ) (hx : 0 < x) : boxcox (fin x) (fin l) = .ok (fin (bc l x)) := by
  by_cases h : l = 0
  · simp [boxcox, bc, h, mp.log_pos hx]
  · simp [boxcox, bc, h, mp.powm1_pos hx, fin_div _ h]
theorem boxcox1p_eval {x : ℝ} (l : ℝ) (hx : -1 < x) :
    boxcox1p (fin x) (fin l) = .ok (fin (bc l (1 + x))) := by
  by_cases h : l = 0
  · simp [boxcox1p, bc, h, mp.log1p_pos hx]
  · simp [boxcox1p, bc, h, pow1pm1_eval l hx, fin_div _ h]
theorem invBoxcox_eval {l y : ℝ} (h : l = 0 ∨ -1 < l * y) :
    invBoxcox (fin y) (fin l) = .ok (fin (bcInv l y)) := by
  by_cases hl : l = 0
  · simp [invBoxcox, bcInv, hl]
  · simp [invBoxcox, bcInv, hl, invPowm1_eval (h.resolve_left hl) hl]
theorem invBoxcox1p_eval {l y : ℝ} (h : l = 0 ∨ -1 < l * y) :
    invBoxcox1p (fin y) (fin l) = .ok (fin (bcInv l y - 1)) := by
  by_cases hl : l = 0
  · simp [invBoxcox1p, bcInv, hl]
  · simp [invBoxcox1p, bcInv, hl, invPow1pm1_eval (h.resolve_left hl) hl]

theorem bc_dom (l : ℝ) {x : ℝ} (hx : 0 < x) : l = 0 ∨ -1 < l * bc l x := by
  by_cases h : l = 0
  · exact Or.inl h
  · right
    rw [bc, if_neg h, mul_div_cancel₀ _ h]
    have := Real.rpow_pos_of_pos hx l
    linarith

theorem bcInv_bc (l : ℝ) {x : ℝ} (hx : 0 < x) : bcInv l (bc l x) = x := by
  by_cases h : l = 0
  · simp [bcInv, bc, h, Real.exp_log hx]
  · rw [bcInv, bc, if_neg h, if_neg h, mul_div_cancel₀ _ h, add_sub_cancel, rpow_rpow_inv hx.le h]

theorem bcInv_pos {l y : ℝ} (h : l = 0 ∨ -1 < l * y) : 0 < bcInv l y := by
  by_cases hl : l = 0
  · rw [bcInv, if_pos hl]; exact Real.exp_pos y
  · rw [bcInv, if_neg hl]; exact Real.rpow_pos_of_pos (by linarith [h.resolve_left hl]) _

theorem bc_bcInv {l y : ℝ} (h : l = 0 ∨ -1 < l * y) : bc l (bcInv l y) = y := by
  by_cases hl : l = 0
  · simp [bcInv, bc, hl]
  · have := h.resolve_left hl
    rw [bcInv, bc, if_neg hl, if_neg hl, rpow_inv_rpow (by linarith) hl]
    field_simp; ring

theorem bc_strictMono (l : ℝ) {x y : ℝ} (hx : 0 < x) (hxy : x < y) : bc l x < bc l y := by
  rcases lt_trichotomy l 0 with h | h | h
  · rw [bc, bc, if_neg h.ne, if_neg h.ne]
    have : y ^ l < x ^ l := Real.rpow_lt_rpow_of_neg hx hxy h
    exact div_lt_div_of_neg_of_lt h (by linarith)
  · rw [bc, bc, if_pos h, if_pos h]; exact Real.log_lt_log hx hxy
  · rw [bc, bc, if_neg h.ne', if_neg h.ne']
    have : x ^ l < y ^ l := Real.rpow_lt_rpow hx.le hxy h
    exact div_lt_div_of_pos_right (by linarith) h

@[simp] theorem bc_one (l : ℝ) : bc l 1 = 0 := by
  by_cases h : l = 0 <;> simp [bc, h]

theorem bc_nonneg (l : ℝ) {x : ℝ} (hx : 1 ≤ x) : 0 ≤ bc l x := by
  rcases hx.eq_or_lt with rfl | h
  · simp
  · have := bc_strictMono l one_pos h
    rw [bc_one] at this; exact this.le

/-- The Yeo-Johnson transformation. -/
noncomputable def yj (l x : ℝ) : ℝ := if 0 ≤ x then bc l (1 + x) else -bc (2 - l) (1 - x)

theorem yeojohnson_eval (x l : ℝ) : yeojohnson (fin x) (fin l) = .ok (fin (yj l x)) := by
  by_cases hx : 0 ≤ x
  · rw [yj, if_pos hx, ← boxcox1p_eval l (by linarith)]
    simp [yeojohnson, boxcox1p, hx]
  · rw [yj, if_neg hx]
    have hx' : -1 < -x := by linarith
    by_cases h : l = 2
    · simp [yeojohnson, hx, h, mp.log1p_pos hx', bc, sub_eq_add_neg]
    · have h2 : 2 - l ≠ 0 := by intro h'; exact h (by linarith)
      simp [yeojohnson, hx, h, pow1pm1_eval _ hx', bc, sub_eq_add_neg, fin_div _ h2]
      simp only [← sub_eq_add_neg, h2, if_false, fin_div _ h2]
      congr 2; ring

theorem yj_neg_iff (l x : ℝ) : yj l x < 0 ↔ x < 0 := by
  by_cases hx : 0 ≤ x
  · rw [yj, if_pos hx]
    have := bc_nonneg l (by linarith : 1 ≤ 1 + x)
    constructor <;> intro h <;> linarith
  · rw [yj, if_neg hx]
    have := bc_strictMono (2 - l) one_pos (by linarith : 1 < 1 - x)
    rw [bc_one] at this
    constructor <;> intro h <;> linarith

theorem yj_strictMono (l : ℝ) : StrictMono (yj l) := by
  intro x y hxy
  by_cases hx : 0 ≤ x
  · rw [yj, yj, if_pos hx, if_pos (by linarith)]
    exact bc_strictMono l (by linarith) (by linarith)
  · by_cases hy : 0 ≤ y
    · have h1 := (yj_neg_iff l x).2 (not_le.1 hx)
      have h2 : ¬ yj l y < 0 := by rw [yj_neg_iff]; exact not_lt.2 hy
      linarith
    · rw [yj, yj, if_neg hx, if_neg hy]
      have := bc_strictMono (2 - l) (by linarith : 0 < 1 - y) (by linarith : 1 - y < 1 - x)
      linarith

theorem invYeojohnson_yj (x l : ℝ) : invYeojohnson (fin (yj l x)) (fin l) = .ok (fin x) := by
  by_cases hx : 0 ≤ x
  · have h0 : 0 ≤ yj l x := by
      by_contra h; exact absurd ((yj_neg_iff l x).1 (not_le.1 h)) (not_lt.2 hx)
    have h1 : 0 < 1 + x := by linarith
    have h := invBoxcox1p_eval (bc_dom l h1)
    rw [bcInv_bc l h1, add_sub_cancel_left] at h
    have e : yj l x = bc l (1 + x) := if_pos hx
    rw [← e] at h
    rw [← h]
    simp [invYeojohnson, invBoxcox1p, h0]
  · have h0 : ¬ 0 ≤ yj l x := not_le.2 ((yj_neg_iff l x).2 (not_le.1 hx))
    have h1 : 0 < 1 - x := by linarith
    have h := invBoxcox1p_eval (bc_dom (2 - l) h1)
    rw [bcInv_bc _ h1] at h
    have e : yj l x = -bc (2 - l) (1 - x) := if_neg hx
    rw [e] at h0 ⊢
    by_cases hl : l = 2
    · subst hl
      simp [invBoxcox1p] at h
      simp [invYeojohnson, h0, h] at h0 ⊢
      simp [h0, h]
    · have h2 : 2 - l ≠ 0 := by intro h'; exact hl (by linarith)
      simp [invBoxcox1p, h2] at h
      have e2 : -((l - 2) * bc (2 - l) (1 - x)) = (2 - l) * bc (2 - l) (1 - x) := by ring
      simp [invYeojohnson, h0, hl, e2, h]

theorem yj_invYeojohnson {x y l : ℝ} (h : invYeojohnson (fin y) (fin l) = .ok (fin x)) :
    yj l x = y := by
  by_cases hy : 0 ≤ y
  · have e : invYeojohnson (fin y) (fin l) = invBoxcox1p (fin y) (fin l) := by
      simp [invYeojohnson, invBoxcox1p, hy]
    by_cases hd : l = 0 ∨ -1 < l * y
    · rw [e, invBoxcox1p_eval hd] at h
      have hx : x = bcInv l y - 1 := by simpa using h.symm
      have h1 : 0 ≤ x := by
        by_contra hc
        have := bc_strictMono l (bcInv_pos hd) (by linarith : bcInv l y < 1)
        rw [bc_bcInv hd, bc_one] at this
        linarith
      rw [yj, if_pos h1, hx, add_sub_cancel, bc_bcInv hd]
    · push Not at hd
      simp [e, invBoxcox1p, hd.1, invPow1pm1, hd.2] at h
  · have hy' : y < 0 := not_le.1 hy
    by_cases hd : 2 - l = 0 ∨ -1 < (2 - l) * -y
    · have hx : x = -(bcInv (2 - l) (-y) - 1) := by
        by_cases hl : l = 2
        · simp [invYeojohnson, hy, hl] at h
          simp [← h, bcInv, hl]
        · have h2 : 2 - l ≠ 0 := by intro h'; exact hl (by linarith)
          have e3 : -fin (2 - l) * fin y = fin ((2 - l) * -y) := by
            simp; ring
          have e4 : invYeojohnson (fin y) (fin l) =
              (invPow1pm1 (-fin (2 - l) * fin y) (fin (2 - l)) >>= fun v => .ok (-v)) := by
            simp [invYeojohnson, hy, hl]
          rw [e4, e3, invPow1pm1_eval (hd.resolve_left h2) h2, ok_bind] at h
          rw [bcInv, if_neg h2]
          simpa using h.symm
      have h1 : ¬ 0 ≤ x := by
        intro hc
        have h3 : bcInv (2 - l) (-y) ≤ 1 := by linarith
        have h4 : bc (2 - l) (bcInv (2 - l) (-y)) ≤ 0 := by
          rcases h3.eq_or_lt with h3 | h3
          · simp [h3]
          · have := bc_strictMono (2 - l) (bcInv_pos hd) h3
            rw [bc_one] at this; exact this.le
        rw [bc_bcInv hd] at h4
        linarith
      rw [yj, if_neg h1, show 1 - x = bcInv (2 - l) (-y) by rw [hx]; ring, bc_bcInv hd, neg_neg]
    · push Not at hd
      have hl : l ≠ 2 := by intro h'; exact hd.1 (by linarith)
      have e2 : (l - 2) * y ≤ -1 := by linarith [hd.2]
      simp [invYeojohnson, hy, hl, invPow1pm1, hd.1, e2] at h

end Mpsci.stats
