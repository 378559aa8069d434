import Verif.Spec.Ends
import Verif.Spec.Search

/-! # The ends of the distribution from an inverse of the cdf, or from a density -/

namespace Mpsci

open Classical Num Spec MeasureTheory Set Filter Topology

private theorem le_of_not {lo hi : Num} {x y : ℝ} (h1 : lo < fin y) (h2 : fin y < hi) :
    (¬ lo < fin x → x ≤ y) ∧ (¬ fin x < hi → y ≤ x) := by
  constructor
  · intro h
    cases lo <;> simp_all
    linarith
  · intro h
    cases hi <;> simp_all
    linarith

/-- The values of the cdf on the open interval are exactly the numbers of `(0, 1)`. -/
theorem isSupport_of_hits {cdf : Num → M Num} {supp : M (Num × Num)} {lo hi : Num} {S : Set ℝ}
    (hc : IsCdf cdf) (h1 : ∀ p : ℝ, 0 < p → p < 1 → ∃ x ∈ S, cdf (fin x) = .ok (fin p))
    (h2 : ∀ x ∈ S, ∃ p : ℝ, 0 < p ∧ p < 1 ∧ cdf (fin x) = .ok (fin p))
    (hs : supp = .ok (lo, hi)) (hS : ∀ x : ℝ, x ∈ S ↔ lo < fin x ∧ fin x < hi) : IsSupport cdf supp := by
  obtain ⟨F, hF, hmono, -, hb, -, -⟩ := hc
  have hval : ∀ x p : ℝ, cdf (fin x) = .ok (fin p) → F x = p := fun x p h => by
    rw [hF x] at h; exact fin_inj.1 (Except.ok.inj h)
  have hin : ∀ x ∈ S, 0 < F x ∧ F x < 1 := fun x hx => by
    obtain ⟨p, hp0, hp1, hp⟩ := h2 x hx
    rw [hval x p hp]; exact ⟨hp0, hp1⟩
  have hhit : ∀ p : ℝ, 0 < p → p < 1 → ∃ y ∈ S, F y = p := fun p h0 h1' => by
    obtain ⟨y, hy, h⟩ := h1 p h0 h1'
    exact ⟨y, hy, hval y p h⟩
  have hlo : ∀ x : ℝ, ¬ lo < fin x → F x = 0 := fun x hx => by
    by_contra hne
    have h0 : 0 < F x := lt_of_le_of_ne (hb x).1 (Ne.symm hne)
    obtain ⟨y, hy, hyF⟩ := hhit (F x / 2) (by linarith) (by linarith [(hb x).2])
    have hyS := (hS y).1 hy
    have := hmono ((le_of_not hyS.1 hyS.2).1 hx)
    linarith
  have hhi : ∀ x : ℝ, ¬ fin x < hi → F x = 1 := fun x hx => by
    by_contra hne
    have h0 : F x < 1 := lt_of_le_of_ne (hb x).2 hne
    obtain ⟨y, hy, hyF⟩ := hhit ((F x + 1) / 2) (by linarith [(hb x).1]) (by linarith)
    have hyS := (hS y).1 hy
    have := hmono ((le_of_not hyS.1 hyS.2).2 hx)
    linarith
  refine ⟨lo, hi, F, hs, hF, fun x => ⟨⟨fun h => ?_, fun h => ?_⟩, ⟨fun h => ?_, fun h => ?_⟩⟩⟩
  · by_contra hx
    rw [hlo x hx] at h; exact lt_irrefl _ h
  · by_cases hx : fin x < hi
    · exact (hin x ((hS x).2 ⟨h, hx⟩)).1
    · rw [hhi x hx]; exact one_pos
  · by_contra hx
    rw [hhi x hx] at h; exact lt_irrefl _ h
  · by_cases hx : lo < fin x
    · exact (hin x ((hS x).2 ⟨hx, h⟩)).2
    · rw [hlo x hx]; exact one_pos

theorem isSupport_of_inverts {cdf inv : Num → M Num} {supp : M (Num × Num)} {lo hi : Num} {S : Set ℝ}
    (hc : IsCdf cdf) (h : Inverts S cdf inv)
    (hs : supp = .ok (lo, hi)) (hS : ∀ x : ℝ, x ∈ S ↔ lo < fin x ∧ fin x < hi) : IsSupport cdf supp :=
  isSupport_of_hits hc (fun p h0 h1 => let ⟨x, hx, _, hv⟩ := h.1 p h0 h1; ⟨x, hx, hv⟩)
    (fun x hx => let ⟨p, h0, h1, hv, _⟩ := h.2 x hx; ⟨p, h0, h1, hv⟩) hs hS

theorem isSupport_of_search {cdf : Num → M Num} {inv : ℕ → Num → M Num} {supp : M (Num × Num)} {lo hi : Num} {S : Set ℝ}
    (hc : IsCdf cdf) (h : InvertsSearch S cdf inv)
    (hs : supp = .ok (lo, hi)) (hS : ∀ x : ℝ, x ∈ S ↔ lo < fin x ∧ fin x < hi) : IsSupport cdf supp :=
  isSupport_of_hits hc (fun p h0 h1 => let ⟨x, hx, _, hv⟩ := h.1 p h0 h1; ⟨x, hx, hv⟩)
    (fun x hx => let ⟨p, h0, h1, hv, _⟩ := h.2 x hx; ⟨p, h0, h1, hv⟩) hs hS

private theorem exists_left {lo hi : Num} (h : lo < hi) {x : ℝ} (hx : lo < fin x) : ∃ a b : ℝ, a < b ∧ b ≤ x ∧
    ∀ y : ℝ, a < y → y < b → lo < fin y ∧ fin y < hi := by
  cases lo <;> cases hi <;> simp at h hx
  · rename_i a b
    exact ⟨a, min x b, lt_min hx h, min_le_left _ _, fun y h1 h2 => by simp [h1, h2.trans_le (min_le_right _ _)]⟩
  · rename_i a
    exact ⟨a, x, hx, le_rfl, fun y h1 _ => by simp [h1]⟩
  · rename_i b
    exact ⟨min x b - 1, min x b, sub_one_lt _, min_le_left _ _, fun y _ h2 => by simp [h2.trans_le (min_le_right _ _)]⟩
  · exact ⟨x - 1, x, by simp, le_rfl, fun y _ _ => by simp⟩

private theorem exists_right {lo hi : Num} (h : lo < hi) {x : ℝ} (hx : fin x < hi) : ∃ a b : ℝ, a < b ∧ x ≤ a ∧
    ∀ y : ℝ, a < y → y < b → lo < fin y ∧ fin y < hi := by
  cases lo <;> cases hi <;> simp at h hx
  · rename_i a b
    exact ⟨max x a, b, max_lt hx h, le_max_left _ _, fun y h1 h2 => by simp [h2, (le_max_right _ _).trans_lt h1]⟩
  · rename_i a
    exact ⟨max x a, max x a + 1, by simp, le_max_left _ _, fun y h1 _ => by simp [(le_max_right _ _).trans_lt h1]⟩
  · rename_i b
    exact ⟨x, b, hx, le_rfl, fun y _ h2 => by simp [h2]⟩
  · exact ⟨x, x + 1, by simp, le_rfl, fun y _ _ => by simp⟩

/-- The density is positive on the open interval and vanishes outside the closed one. -/
theorem isSupport_of_density {pdf cdf : Num → M Num} {supp : M (Num × Num)} {lo hi : Num} {E S : Set ℝ}
    (hd : IsDensity E S pdf cdf) (hE : E.Countable) (hlt : lo < hi)
    (hpos : ∀ x : ℝ, lo < fin x → fin x < hi → x ∉ E → ∃ v : ℝ, 0 < v ∧ pdf (fin x) = .ok (fin v))
    (hs : supp = .ok (lo, hi)) (hS : ∀ x ∈ S, ¬ fin x < lo ∧ ¬ hi < fin x) : IsSupport cdf supp := by
  obtain ⟨f, F, hf, hF, hf0, hfS, hint, hFi, htot⟩ := hd
  have hfp : ∀ x : ℝ, lo < fin x → fin x < hi → x ∉ E → 0 < f x := fun x h1 h2 h3 => by
    obtain ⟨v, hv, hp⟩ := hpos x h1 h2 h3
    rw [hf x h3] at hp
    rw [fin_inj.1 (Except.ok.inj hp)]; exact hv
  have hright : ∀ x, ∫ t in Ioi x, f t = 1 - F x := fun x => by
    have := setIntegral_compl (measurableSet_Iic (a := x)) hint
    rw [compl_Iic, htot, hFi x] at this
    exact this
  have hposI : ∀ (T : Set ℝ) (a b : ℝ), MeasurableSet T → a < b → Ioo a b ⊆ T →
      (∀ y, a < y → y < b → lo < fin y ∧ fin y < hi) → 0 < ∫ t in T, f t := by
    intro T a b hT hab hsub hy
    rw [setIntegral_pos_iff_support_of_nonneg_ae (Eventually.of_forall hf0) hint.integrableOn]
    have hss : Ioo a b \ E ⊆ Function.support f ∩ T := fun y hy' =>
      ⟨(hfp y (hy y hy'.1.1 hy'.1.2).1 (hy y hy'.1.1 hy'.1.2).2 hy'.2).ne', hsub hy'.1⟩
    refine lt_of_lt_of_le ?_ (measure_mono hss)
    rw [measure_sdiff_null (hE.measure_zero volume), Real.volume_Ioo]
    simpa using hab
  have hzero : ∀ (T : Set ℝ), MeasurableSet T → (∀ᵐ y, y ∈ T → f y = 0) → ∫ t in T, f t = 0 := fun T hT h =>
    setIntegral_eq_zero_of_ae_eq_zero h
  refine ⟨lo, hi, F, hs, hF, fun x => ⟨⟨fun h => ?_, fun h => ?_⟩, ⟨fun h => ?_, fun h => ?_⟩⟩⟩
  · by_contra hx
    rw [← hFi x, hzero _ measurableSet_Iic] at h
    · exact lt_irrefl _ h
    · filter_upwards [(countable_singleton x).ae_notMem volume] with y hy hyx
      refine hfS y fun hyS => (hS y hyS).1 ?_
      have hlt : y < x := lt_of_le_of_ne hyx (by simpa using hy)
      cases lo <;> cases hi <;> simp_all <;> linarith
  · obtain ⟨a, b, hab, hbx, hy⟩ := exists_left hlt h
    rw [← hFi x]
    exact hposI _ a b measurableSet_Iic hab (fun y hy' => (hy'.2.le.trans hbx)) hy
  · by_contra hx
    have h' : 0 < 1 - F x := by linarith
    rw [← hright x, hzero _ measurableSet_Ioi] at h'
    · exact lt_irrefl _ h'
    · refine Eventually.of_forall fun y hyx => hfS y fun hyS => (hS y hyS).2 ?_
      have hlt : x < y := hyx
      cases lo <;> cases hi <;> simp_all <;> linarith
  · obtain ⟨a, b, hab, hxa, hy⟩ := exists_right hlt h
    have := hposI (Ioi x) a b measurableSet_Ioi hab (fun y hy' => (hxa.trans_lt hy'.1)) hy
    rw [hright x] at this
    linarith

end Mpsci
