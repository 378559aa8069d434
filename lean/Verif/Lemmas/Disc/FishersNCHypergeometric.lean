import Verif.Model.Disc.FishersNCHypergeometric
import Verif.Props.Disc.Hypergeometric
import Verif.Lemmas.Disc.MultiHypergeometric

/-! Fisher's noncentral hypergeometric distribution: the table of probabilities. -/

namespace Mpsci.fishers_noncentral_hypergeometric

open Classical Num Finset fisherExact hypergeometric

variable {K M n : ℕ} {c : ℝ}

/-- The unnormalised masses. -/
noncomputable def u (c : ℝ) (K M n k : ℕ) : ℝ := H K M n k * c ^ k
/-- Their sum. -/
noncomputable def Z (c : ℝ) (K M n : ℕ) : ℝ := ∑ k ∈ range (n + 1), u c K M n k
/-- The masses. -/
noncomputable def F (c : ℝ) (K M n k : ℕ) : ℝ := u c K M n k / Z c K M n

/-- The ends of the support. -/
def lo (M n : ℕ) : ℤ := max 0 ((n:ℤ) - M)
/-- One more than the last point of the support. -/
def hi (K n : ℕ) : ℤ := min (n:ℤ) K + 1

theorem lo_lt_hi (hn : n ≤ K + M) : lo M n < hi K n := by unfold lo hi; omega

theorem u_nonneg (hc : 0 < c) {k : ℕ} : 0 ≤ u c K M n k := mul_nonneg H_nonneg (by positivity)

theorem u_pos (hc : 0 < c) (hn : n ≤ K + M) {k : ℕ} (h1 : lo M n ≤ k) (h2 : (k:ℤ) < hi K n) :
    0 < u c K M n k := by
  unfold lo at h1; unfold hi at h2
  exact mul_pos (H_pos hn (by omega) (by omega) (by omega)) (by positivity)

theorem u_zero {k : ℕ} (h : ¬ (lo M n ≤ k ∧ (k:ℤ) < hi K n)) : u c K M n k = 0 := by
  unfold lo hi at h
  have : H K M n k = 0 := by
    apply H_zero
    by_cases h1 : K < k ∨ n < k
    · exact w_zero_of_gt h1
    · exact w_zero_of_lt (by omega)
  rw [u, this, zero_mul]

theorem Z_pos (hc : 0 < c) (hn : n ≤ K + M) : 0 < Z c K M n := by
  obtain ⟨k, hk⟩ := Int.eq_ofNat_of_zero_le (show 0 ≤ lo M n by unfold lo; omega)
  have h := lo_lt_hi hn
  refine Finset.sum_pos' (fun k _ => u_nonneg hc) ⟨k, ?_, u_pos hc hn (by omega) (by omega)⟩
  rw [mem_range]; unfold hi at h; omega

theorem ext_zero {k : ℤ} (h : ¬ (lo M n ≤ k ∧ k < hi K n)) : extZ (u c K M n) k = 0 := by
  exact forall_int (P := fun k => ¬ (lo M n ≤ k ∧ k < hi K n) → extZ (u c K M n) k = 0)
    (fun k h => by rw [extZ_nat]; exact u_zero h) (fun k hk _ => extZ_neg _ hk) k h

theorem sum_u : ((py.range (lo M n) (hi K n)).map (extZ (u c K M n))).sum = Z c K M n := by
  have h1 : HasSum (extZ (u c K M n)) _ := hasSum_range fun k hk => ext_zero hk
  refine h1.unique (hasSum_extZ ?_)
  refine hasSum_sum_of_ne_finset_zero fun k hk => u_zero ?_
  rw [mem_range] at hk; unfold lo hi; omega

theorem ext_F (k : ℤ) : extZ (F c K M n) k = extZ (u c K M n) k / Z c K M n := by
  revert k
  exact forall_int (fun k => by rw [extZ_nat, extZ_nat, F]) fun k hk => by simp [extZ_neg _ hk]

theorem hv (hn : n ≤ K + M) : validate ((K + M : ℕ) : ℤ) K n = .ok () :=
  hypergeometric.validate_ok (by omega) hn

theorem support_eval (hn : n ≤ K + M) :
    hypergeometric.support ((K + M : ℕ) : ℤ) K n = .ok (py.range (lo M n) (hi K n)) := by
  simp only [hypergeometric.support, hv hn, ok_bind, pure_eq_ok, lo, hi]
  rw [show (n:ℤ) - (((K + M : ℕ) : ℤ) - K) = (n:ℤ) - M by omega]

theorem logpmf_eval (hn : n ≤ K + M) {k : ℤ} (h : lo M n ≤ k ∧ k < hi K n) :
    hypergeometric.logpmf k ((K + M : ℕ) : ℤ) K n = .ok (fin (Real.log (extZ (H K M n) k))) := by
  have hV : Valid ((K + M : ℕ) : ℤ) K n := by unfold Valid; omega
  obtain ⟨h1, h2⟩ := h
  unfold lo at h1; unfold hi at h2
  obtain ⟨r, -, e1, e2⟩ := hypergeometric.isLogPmf_partial hV k (by
    simp only [Set.mem_setOf_eq]; omega)
  have e3 := hypergeometric.pmf_eval (K := K) (M := M) hn k
  have : r = extZ (H K M n) k := by
    have := (show hypergeometric.pmf k ((K + M : ℕ) : ℤ) K n = _ from e1).symm.trans e3
    injection this with this; injection this
  have hp : 0 < r := by
    obtain ⟨k, rfl⟩ := Int.eq_ofNat_of_zero_le (show 0 ≤ k by omega)
    rw [this, extZ_nat]
    exact H_pos hn (by omega) (by omega) (by omega)
  rw [if_neg hp.ne'] at e2
  rw [← this]; exact e2

theorem log_u (hc : 0 < c) (hn : n ≤ K + M) {k : ℤ} (h : lo M n ≤ k ∧ k < hi K n) :
    Real.log (extZ (H K M n) k) + Real.log c * k = Real.log (extZ (u c K M n) k) ∧
      0 < extZ (u c K M n) k := by
  obtain ⟨h1, h2⟩ := h
  obtain ⟨k, rfl⟩ := Int.eq_ofNat_of_zero_le (show 0 ≤ k by unfold lo at h1; omega)
  have hp := u_pos hc hn h1 h2
  unfold lo at h1; unfold hi at h2
  have := H_pos (K := K) (M := M) (n := n) (k := k) hn (by omega) (by omega) (by omega)
  rw [extZ_nat, extZ_nat, u, Real.log_mul this.ne' (by positivity), Real.log_pow]
  refine ⟨by push_cast; ring, hp⟩

/-- The table that `support_pmf` returns. -/
theorem table (hc : 0 < c) (hn : n ≤ K + M) :
    supportPmf0 (fin c) ((K + M : ℕ) : ℤ) K n = .ok (py.range (lo M n) (hi K n),
      (py.range (lo M n) (hi K n)).map fun k => fin (extZ (F c K M n) k)) := by
  have hlt := lo_lt_hi hn
  have e1 : ((py.range (lo M n) (hi K n)).mapM fun k => hypergeometric.logpmf k ((K + M : ℕ) : ℤ) K n) =
      .ok ((py.range (lo M n) (hi K n)).map fun k => fin (Real.log (extZ (H K M n) k))) :=
    mapM_ok _ fun k hk => logpmf_eval hn (py.mem_range.1 hk)
  have e0 : py.item (py.range (lo M n) (hi K n)) 0 = .ok (lo M n) := by
    have := py.item_range (lo := lo M n) (hi := hi K n) (k := lo M n) le_rfl hlt
    rwa [sub_self] at this
  have e2 : ((py.range (lo M n) (hi K n)).mapM fun k => do
      let s0 ← py.item (py.range (lo M n) (hi K n)) 0
      return (← py.item ((py.range (lo M n) (hi K n)).map
        fun k => fin (Real.log (extZ (H K M n) k))) (k - s0)) + (← mp.log (fin c)) * ofInt k) =
      .ok (((py.range (lo M n) (hi K n)).map fun k => Real.log (extZ (u c K M n) k)).map fin) := by
    rw [List.map_map]
    refine mapM_ok _ fun k hk => ?_
    have hk' := py.mem_range.1 hk
    rw [e0, ok_bind, py.item_map_range _ hk'.1 hk'.2, ok_bind, mp.log_pos hc, ok_bind, ofInt_def, fin_mul,
      fin_add, (log_u hc hn hk').1]
    rfl
  obtain ⟨g, -, -, e3⟩ := py.max_fin
    (l := (py.range (lo M n) (hi K n)).map fun k => Real.log (extZ (u c K M n) k)) (by
      intro h0
      have hm : lo M n ∈ py.range (lo M n) (hi K n) := py.mem_range.2 ⟨le_rfl, hlt⟩
      rw [List.map_eq_nil_iff] at h0
      rw [h0] at hm; exact absurd hm (by simp))
  have e4 : ((((py.range (lo M n) (hi K n)).map fun k => Real.log (extZ (u c K M n) k)).map fin).map
      fun v => mp.exp (v - fin g)) =
      (py.range (lo M n) (hi K n)).map fun k => fin (extZ (u c K M n) k * Real.exp (-g)) := by
    rw [List.map_map, List.map_map]
    refine List.map_congr_left fun k hk => ?_
    simp only [Function.comp, fin_sub, mp.exp_fin]
    rw [sub_eq_add_neg, Real.exp_add, Real.exp_log (log_u hc hn (py.mem_range.1 hk)).2]
  have e5 : mp.fsum ((py.range (lo M n) (hi K n)).map
      fun k => fin (extZ (u c K M n) k * Real.exp (-g))) = fin (Z c K M n * Real.exp (-g)) := by
    rw [mp.fsum_map_fin, List.sum_map_mul_right, sum_u]
  have hZ := Z_pos hc hn
  have e6 : ((py.range (lo M n) (hi K n)).map
      fun k => fin (extZ (u c K M n) k * Real.exp (-g))).mapM (fun v => v /. fin (Z c K M n * Real.exp (-g)))
      = .ok ((py.range (lo M n) (hi K n)).map fun k => fin (extZ (F c K M n) k)) := by
    rw [List.mapM_map]
    refine mapM_ok _ fun k _ => ?_
    have he := Real.exp_pos (-g)
    simp only [Function.comp, fin_div _ (mul_pos hZ he).ne', ext_F, mul_div_mul_right _ _ he.ne']
  simp only [supportPmf0, support_eval hn, ok_bind, e1]
  rw [e2, ok_bind, e3, ok_bind]
  simp only [e4, e5]
  rw [e6, ok_bind, pure_eq_ok]

theorem supportPmf_eval (hc : 0 < c) (hn : n ≤ K + M) :
    supportPmf (fin c) ((K + M : ℕ) : ℤ) K n = .ok (py.range (lo M n) (hi K n),
      (py.range (lo M n) (hi K n)).map fun k => fin (extZ (F c K M n) k)) := by
  rw [supportPmf, hv hn, ok_bind, table hc hn]

theorem F_zero {k : ℤ} (h : ¬ (lo M n ≤ k ∧ k < hi K n)) : extZ (F c K M n) k = 0 := by
  rw [ext_F, ext_zero h, zero_div]

theorem F_nonneg (hc : 0 < c) (hn : n ≤ K + M) (k : ℤ) : 0 ≤ extZ (F c K M n) k := by
  revert k
  exact forall_int (fun k => by rw [extZ_nat]; exact div_nonneg (u_nonneg hc) (Z_pos hc hn).le)
    fun k hk => by rw [extZ_neg _ hk]

theorem F_sum (hc : 0 < c) (hn : n ≤ K + M) : HasSum (extZ (F c K M n)) 1 := by
  have h := hasSum_range (f := extZ (u c K M n)) (lo := lo M n) (hi := hi K n) fun k hk => ext_zero hk
  rw [sum_u] at h
  refine hasSum_of (h.div_const (Z c K M n)) (fun k => ext_F k) (div_self (Z_pos hc hn).ne').symm

section
variable (f : ℤ → ℝ) {a b : ℤ}

theorem item0 (h : a < b) : py.item (py.range a b) 0 = .ok a := by
  have := py.item_range (lo := a) (hi := b) (k := a) le_rfl h
  rwa [sub_self] at this

theorem pmfOf_eval (hz : ∀ k, ¬ (a ≤ k ∧ k < b) → f k = 0) (h : a < b) (k : ℤ) :
    pmfOf k (py.range a b, (py.range a b).map fun k => fin (f k)) = .ok (fin (f k)) := by
  by_cases hk : a ≤ k ∧ k < b
  · have h1 : k ∈ py.range a b := py.mem_range.2 hk
    simp only [pmfOf, if_pos h1, item0 h, ok_bind]
    rw [py.item_map_range _ hk.1 hk.2]
  · have h1 : k ∉ py.range a b := fun h => hk (py.mem_range.1 h)
    simp only [pmfOf, if_neg h1, hz k hk]; rfl

theorem cdfOf_eval (hz : ∀ k, ¬ (a ≤ k ∧ k < b) → f k = 0) (h : a < b) (h1 : HasSum f 1) (k : ℤ) :
    ∃ s : ℝ, cdfOf k (py.range a b, (py.range a b).map fun k => fin (f k)) = .ok (fin s) ∧
      HasSum (fun j => if j ≤ k then f j else 0) s := by
  simp only [cdfOf, item0 h, ok_bind, py.item_range_last h]
  by_cases c1 : k < a
  · refine ⟨0, by rw [if_pos c1]; rfl, hasSum_of hasSum_zero (fun j => ?_) rfl⟩
    split_ifs with hj
    · exact hz j (by omega)
    · rfl
  rw [if_neg c1]
  by_cases c2 : k ≥ b - 1
  · refine ⟨1, by simp only [if_pos c2]; rfl, hasSum_of h1 (fun j => ?_) rfl⟩
    split_ifs with hj
    · rfl
    · exact (hz j (by omega)).symm
  · refine ⟨((py.range a (k + 1)).map f).sum, ?_, ?_⟩
    · rw [if_neg c2, show k - a + 1 = k + 1 - a by omega, py.sliceTo_map_range _ (by omega) (by omega),
        mp.fsum_map_fin]; rfl
    · have := hasSum_range (f := fun j => if j ≤ k then f j else 0) (lo := a) (hi := k + 1) fun j hj => by
        by_cases q : j ≤ k
        · rw [if_pos q]; exact hz j (by omega)
        · rw [if_neg q]
      refine hasSum_of this (fun _ => rfl) ?_
      congr 1
      refine List.map_congr_left fun j hj => ?_
      rw [if_pos (by have := py.mem_range.1 hj; omega)]

theorem sfOf_eval (hz : ∀ k, ¬ (a ≤ k ∧ k < b) → f k = 0) (h : a < b) (h1 : HasSum f 1) (k : ℤ) :
    ∃ s : ℝ, sfOf k (py.range a b, (py.range a b).map fun k => fin (f k)) = .ok (fin s) ∧
      HasSum (fun j => if k < j then f j else 0) s := by
  simp only [sfOf, item0 h, ok_bind, py.item_range_last h]
  by_cases c1 : k < a
  · refine ⟨1, by rw [if_pos c1]; rfl, hasSum_of h1 (fun j => ?_) rfl⟩
    split_ifs with hj
    · rfl
    · exact (hz j (by omega)).symm
  rw [if_neg c1]
  by_cases c2 : k ≥ b - 1
  · refine ⟨0, by simp only [if_pos c2]; rfl, hasSum_of hasSum_zero (fun j => ?_) rfl⟩
    split_ifs with hj
    · exact hz j (by omega)
    · rfl
  · refine ⟨((py.range (k + 1) b).map f).sum, ?_, ?_⟩
    · rw [if_neg c2, show k - a + 1 = k + 1 - a by omega, py.sliceFrom_map_range _ (by omega),
        mp.fsum_map_fin]; rfl
    · have := hasSum_range (f := fun j => if k < j then f j else 0) (lo := k + 1) (hi := b) fun j hj => by
        by_cases q : k < j
        · rw [if_pos q]; exact hz j (by omega)
        · rw [if_neg q]
      refine hasSum_of this (fun _ => rfl) ?_
      congr 1
      refine List.map_congr_left fun j hj => ?_
      rw [if_pos (by have := py.mem_range.1 hj; omega)]

theorem meanOf_eval (hz : ∀ k, ¬ (a ≤ k ∧ k < b) → f k = 0) :
    ∃ m : ℝ, meanOf (py.range a b, (py.range a b).map fun k => fin (f k)) = .ok (fin m) ∧
      HasSum (fun j : ℤ => (j:ℝ) * f j) m := by
  refine ⟨((py.range a b).map fun j : ℤ => (j:ℝ) * f j).sum, ?_,
    hasSum_range fun k hk => by rw [hz k hk, mul_zero]⟩
  have hl : (py.range a b).length = (b - a).toNat := by simp [py.range]
  simp only [meanOf, List.length_map, hl]
  rw [mapM_ok (g := fun i : ℕ => fin (((a + i : ℤ) : ℝ) * f (a + i)))]
  · rw [ok_bind, pure_eq_ok, mp.fsum_map_fin, py.range, List.map_map]
    rfl
  · intro i hi
    rw [List.mem_range] at hi
    have e1 := py.item_range (lo := a) (hi := b) (k := a + i) (by omega) (by omega)
    have e2 := py.item_map_range (fun k => fin (f k)) (lo := a) (hi := b) (k := a + i) (by omega) (by omega)
    rw [show a + (i:ℤ) - a = i by omega] at e1 e2
    rw [e1, ok_bind, e2, ok_bind, ofInt_def, fin_mul]; rfl

end

end Mpsci.fishers_noncentral_hypergeometric
