import Verif.Lemmas.Shape
import Verif.Base.Special
import Mathlib.Analysis.Calculus.Deriv.Inverse
import Mathlib.Analysis.SpecialFunctions.Pow.Deriv
import Mathlib.Topology.Order.MonotoneContinuity

/-! The Tukey lambda distribution: quantile function, distribution function, density. -/

namespace Mpsci

open Classical MeasureTheory Set Filter Topology

/-- A distribution given by a differentiable quantile function. -/
theorem isDist_of_quantile {F f Q q : ℝ → ℝ} {S E : Set ℝ} (hE : E.Countable) (hS : IsOpen S) (hmono : Monotone F)
    (h01 : ∀ z, F z ∈ Icc (0:ℝ) 1) (hFQ : ∀ p ∈ Ioo (0:ℝ) 1, F (Q p) = p) (hQF : ∀ z ∈ S, F z ∈ Ioo (0:ℝ) 1 ∧ Q (F z) = z)
    (hd : ∀ p ∈ Ioo (0:ℝ) 1, HasDerivAt Q (q p) p) (hq : ∀ p ∈ Ioo (0:ℝ) 1, 0 < q p) (hf : ∀ z ∈ S, f z = (q (F z))⁻¹)
    (hout : ∀ z, z ∉ S → f z = 0) (hloc : ∀ z, z ∉ S → z ∉ E → F =ᶠ[𝓝 z] fun _ => F z) : IsDist F f := by
  have hcont : Continuous F := by
    have h1 : Continuous (fun z => (⟨F z, h01 z⟩ : Icc (0:ℝ) 1)) := by
      refine Monotone.continuous_of_denseRange (fun a b hab => hmono hab) ?_
      have h2 : Dense (Ioo (⊥ : Icc (0:ℝ) 1) ⊤) := by
        rw [dense_iff_closure_eq, closure_Ioo (by simp), Icc_bot_top]
      refine h2.mono fun p hp => ⟨Q p, Subtype.ext ?_⟩
      exact hFQ p ⟨hp.1, hp.2⟩
    exact continuous_subtype_val.comp h1
  have hlim0 : Tendsto F atBot (𝓝 0) := by
    rw [Metric.tendsto_nhds]
    intro ε hε
    have hp : min (ε / 2) (1 / 2) ∈ Ioo (0:ℝ) 1 := ⟨by positivity, (min_le_right _ _).trans_lt (by norm_num)⟩
    filter_upwards [eventually_le_atBot (Q (min (ε / 2) (1 / 2)))] with z hz
    have := hmono hz
    rw [hFQ _ hp] at this
    rw [Real.dist_eq, sub_zero, abs_of_nonneg (h01 z).1]
    have := min_le_left (ε / 2) (1 / 2)
    linarith
  have hlim1 : Tendsto F atTop (𝓝 1) := by
    rw [Metric.tendsto_nhds]
    intro ε hε
    have hp : max (1 - ε / 2) (1 / 2) ∈ Ioo (0:ℝ) 1 :=
      ⟨lt_of_lt_of_le (by norm_num) (le_max_right _ _), max_lt (by linarith) (by norm_num)⟩
    filter_upwards [eventually_ge_atTop (Q (max (1 - ε / 2) (1 / 2)))] with z hz
    have := hmono hz
    rw [hFQ _ hp] at this
    rw [Real.dist_eq, abs_of_nonpos (by linarith [(h01 z).2])]
    have := le_max_left (1 - ε / 2) (1 / 2)
    linarith
  refine isDist_of_mono hE hmono hcont (fun z hz => ?_) (fun z => ?_) hlim0 hlim1
  · by_cases hzS : z ∈ S
    · rw [hf z hzS]
      exact HasDerivAt.of_local_left_inverse hcont.continuousAt (hd _ (hQF z hzS).1) (hq _ (hQF z hzS).1).ne'
        (by filter_upwards [hS.mem_nhds hzS] with y hy using (hQF y hy).2)
    · rw [hout z hzS]
      exact (hasDerivAt_const z (F z)).congr_of_eventuallyEq (hloc z hzS hz)
  · by_cases hzS : z ∈ S
    · rw [hf z hzS]; exact (inv_pos.2 (hq _ (hQF z hzS).1)).le
    · rw [hout z hzS]

namespace tkD

/-- The quantile function. -/
noncomputable def Q (l p : ℝ) : ℝ := if l = 0 then Real.log p - Real.log (1 - p) else (p ^ l - (1 - p) ^ l) / l

/-- Its derivative. -/
noncomputable def q (l p : ℝ) : ℝ := p ^ (l - 1) + (1 - p) ^ (l - 1)

variable {l p z : ℝ}

theorem q_pos (hp : p ∈ Ioo (0:ℝ) 1) : 0 < q l p :=
  add_pos (Real.rpow_pos_of_pos hp.1 _) (Real.rpow_pos_of_pos (sub_pos.2 hp.2) _)

theorem hasDerivAt_Q (hp : p ∈ Ioo (0:ℝ) 1) : HasDerivAt (Q l) (q l p) p := by
  have h1 : (1 - p) ≠ 0 := (sub_pos.2 hp.2).ne'
  have hs : HasDerivAt (fun x : ℝ => 1 - x) (-1) p := by simpa using (hasDerivAt_id p).const_sub 1
  by_cases hl : l = 0
  · have e : Q l = fun p => Real.log p - Real.log (1 - p) := by funext x; simp [Q, hl]
    rw [e]
    refine ((Real.hasDerivAt_log hp.1.ne').sub (hs.log h1)).congr_deriv ?_
    rw [q, hl, zero_sub, Real.rpow_neg_one, Real.rpow_neg_one]; field_simp; ring
  · have e : Q l = fun p => (p ^ l - (1 - p) ^ l) / l := by funext x; simp [Q, hl]
    rw [e]
    refine (((Real.hasDerivAt_rpow_const (Or.inl hp.1.ne')).sub (hs.rpow_const (p := l) (Or.inl h1))).div_const l).congr_deriv ?_
    rw [q]; field_simp; ring

theorem Q_strictMono : StrictMonoOn (Q l) (Ioo 0 1) := by
  refine strictMonoOn_of_deriv_pos (convex_Ioo 0 1) (fun p hp => (hasDerivAt_Q hp).continuousAt.continuousWithinAt) fun p hp => ?_
  rw [interior_Ioo] at hp
  rw [(hasDerivAt_Q hp).deriv]; exact q_pos hp

theorem Q_reflect (l p : ℝ) : Q l (1 - p) = -Q l p := by
  unfold Q; split_ifs
  · rw [sub_sub_cancel]; ring
  · rw [sub_sub_cancel]; ring

theorem Q_half (l : ℝ) : Q l (1 / 2) = 0 := by
  have := Q_reflect l (1 / 2)
  norm_num at this
  norm_num; linarith

/-- The interior of the support. -/
def S (l : ℝ) : Set ℝ := if 0 < l then Ioo (-(1 / l)) (1 / l) else univ

theorem isOpen_S : IsOpen (S l) := by unfold S; split_ifs <;> simp [isOpen_Ioo]

theorem Q_mem (hp : p ∈ Ioo (0:ℝ) 1) : Q l p ∈ S l := by
  unfold S; split_ifs with hl
  · have h1 := Real.rpow_pos_of_pos hp.1 l
    have h2 := Real.rpow_pos_of_pos (sub_pos.2 hp.2) l
    have h3 := Real.rpow_lt_one hp.1.le hp.2 hl
    have h4 := Real.rpow_lt_one (sub_pos.2 hp.2).le (sub_lt_self 1 hp.1) hl
    rw [Q, if_neg hl.ne', ← neg_div]
    constructor <;> gcongr <;> linarith
  · trivial

theorem continuousOn_Q (hl : 0 < l) : ContinuousOn (Q l) (Icc 0 1) := by
  have e : Q l = fun p => (p ^ l - (1 - p) ^ l) / l := by funext x; simp [Q, hl.ne']
  rw [e]
  refine Continuous.continuousOn ?_
  exact ((Real.continuous_rpow_const hl.le).sub ((Real.continuous_rpow_const hl.le).comp (continuous_const.sub continuous_id))).div_const l

theorem Q_zero (hl : 0 < l) : Q l 0 = -(1 / l) := by
  rw [Q, if_neg hl.ne', Real.zero_rpow hl.ne', sub_zero, Real.one_rpow]; ring

theorem Q_one (hl : 0 < l) : Q l 1 = 1 / l := by
  have := Q_reflect l 0
  rw [sub_zero, Q_zero hl] at this; linarith

theorem exists_below (hl : l < 0) (z : ℝ) : ∃ p ∈ Ioo (0:ℝ) 1, p ≤ 1 / 2 ∧ Q l p < z := by
  have h2 : (1:ℝ) < 2 ^ (-l) := Real.one_lt_rpow (by norm_num) (by linarith)
  set A := (2:ℝ) ^ (-l) + |l * z| + 1 with hA
  have hA1 : 1 < A := by have := abs_nonneg (l * z); linarith
  have hp0 : 0 < A ^ (1 / l) := Real.rpow_pos_of_pos (by linarith) _
  have hpl : (A ^ (1 / l)) ^ l = A := by
    rw [← Real.rpow_mul (by linarith), one_div_mul_cancel hl.ne, Real.rpow_one]
  have hle : A ^ (1 / l) ≤ 1 / 2 := by
    have e : ((1:ℝ) / 2) = ((2:ℝ) ^ (-l)) ^ (1 / l) := by
      rw [← Real.rpow_mul (by norm_num), show -l * (1 / l) = -1 by rw [neg_mul, mul_one_div_cancel hl.ne], Real.rpow_neg_one]; norm_num
    rw [e]
    exact Real.rpow_le_rpow_of_nonpos (by linarith) (by have := abs_nonneg (l * z); linarith) (by
      rw [one_div]; exact (inv_neg''.2 hl).le)
  refine ⟨A ^ (1 / l), ⟨hp0, by linarith⟩, hle, ?_⟩
  have h3 : (1 - A ^ (1 / l)) ^ l ≤ 2 ^ (-l) := by
    rw [Real.rpow_neg (by norm_num), ← Real.inv_rpow (by norm_num)]
    exact Real.rpow_le_rpow_of_nonpos (by norm_num) (by rw [← one_div]; linarith) hl.le
  rw [Q, if_neg hl.ne, hpl, div_lt_iff_of_neg hl]
  have := le_abs_self (l * z)
  rw [mul_comm z l]
  linarith

theorem exists_Q (hz : z ∈ S l) : ∃ p ∈ Ioo (0:ℝ) 1, Q l p = z := by
  rcases lt_trichotomy l 0 with hl | hl | hl
  · obtain ⟨a, ha, -, ha'⟩ := exists_below hl z
    obtain ⟨b, hb, -, hb'⟩ := exists_below hl (-z)
    have hb2 : (1 - b) ∈ Ioo (0:ℝ) 1 := ⟨sub_pos.2 hb.2, sub_lt_self 1 hb.1⟩
    have hb3 : z < Q l (1 - b) := by rw [Q_reflect]; linarith
    have hab : a ≤ 1 - b := by
      by_contra h
      have := Q_strictMono (l := l) hb2 ha (not_le.1 h)
      linarith
    have hsub : Icc a (1 - b) ⊆ Ioo 0 1 := fun x hx => ⟨ha.1.trans_le hx.1, hx.2.trans_lt hb2.2⟩
    obtain ⟨p, hp, e⟩ := intermediate_value_Icc hab (f := Q l)
      (fun p hp => (hasDerivAt_Q (hsub hp)).continuousAt.continuousWithinAt) ⟨ha'.le, hb3.le⟩
    exact ⟨p, hsub hp, e⟩
  · have h1 : 0 < Real.exp (-z) := Real.exp_pos _
    refine ⟨1 / (Real.exp (-z) + 1), ⟨by positivity, by rw [div_lt_one (by positivity)]; linarith⟩, ?_⟩
    have e : 1 - 1 / (Real.exp (-z) + 1) = Real.exp (-z) / (Real.exp (-z) + 1) := by field_simp; ring
    rw [Q, if_pos hl, e, Real.log_div one_ne_zero (by positivity), Real.log_div h1.ne' (by positivity), Real.log_exp, Real.log_one]
    ring
  · rw [S, if_pos hl] at hz
    obtain ⟨p, hp, e⟩ := intermediate_value_Icc zero_le_one (continuousOn_Q hl)
      (show z ∈ Icc (Q l 0) (Q l 1) by rw [Q_zero hl, Q_one hl]; exact ⟨hz.1.le, hz.2.le⟩)
    refine ⟨p, ⟨hp.1.lt_of_ne fun h => ?_, hp.2.lt_of_ne fun h => ?_⟩, e⟩
    · rw [← h, Q_zero hl] at e; linarith [hz.1]
    · rw [h, Q_one hl] at e; linarith [hz.2]

/-- The distribution function. -/
noncomputable def F (l z : ℝ) : ℝ := if h : ∃ p ∈ Ioo (0:ℝ) 1, Q l p = z then h.choose else if 0 < z then 1 else 0

theorem F_spec (hz : z ∈ S l) : F l z ∈ Ioo (0:ℝ) 1 ∧ Q l (F l z) = z := by
  rw [F, dif_pos (exists_Q hz)]; exact (exists_Q hz).choose_spec

theorem F_Q (hp : p ∈ Ioo (0:ℝ) 1) : F l (Q l p) = p :=
  Q_strictMono.injOn (F_spec (Q_mem hp)).1 hp (F_spec (Q_mem hp)).2

theorem F_eq (hp : p ∈ Ioo (0:ℝ) 1) (h : Q l p = z) : F l z = p := by rw [← h, F_Q hp]

theorem F_low (hl : 0 < l) (hz : z ≤ -(1 / l)) : F l z = 0 := by
  have h0 : 0 < 1 / l := by positivity
  rw [F, dif_neg, if_neg (by linarith)]
  rintro ⟨p, hp, e⟩
  have := Q_mem (l := l) hp
  rw [S, if_pos hl, e] at this; linarith [this.1]

theorem F_high (hl : 0 < l) (hz : 1 / l ≤ z) : F l z = 1 := by
  have h0 : 0 < 1 / l := by positivity
  rw [F, dif_neg, if_pos (by linarith)]
  rintro ⟨p, hp, e⟩
  have := Q_mem (l := l) hp
  rw [S, if_pos hl, e] at this; linarith [this.2]

theorem F_cases (l z : ℝ) : z ∈ S l ∨ (0 < l ∧ z ≤ -(1 / l)) ∨ (0 < l ∧ 1 / l ≤ z) := by
  by_cases hl : 0 < l
  · rcases le_or_gt z (-(1 / l)) with h | h
    · exact Or.inr (Or.inl ⟨hl, h⟩)
    · rcases le_or_gt (1 / l) z with h' | h'
      · exact Or.inr (Or.inr ⟨hl, h'⟩)
      · left; rw [S, if_pos hl]; exact ⟨h, h'⟩
  · left; rw [S, if_neg hl]; trivial

theorem F_01 (l z : ℝ) : F l z ∈ Icc (0:ℝ) 1 := by
  rcases F_cases l z with h | ⟨hl, h⟩ | ⟨hl, h⟩
  · exact Ioo_subset_Icc_self (F_spec h).1
  · rw [F_low hl h]; simp
  · rw [F_high hl h]; simp

theorem F_strictMonoOn : StrictMonoOn (F l) (S l) := by
  intro a ha b hb hab
  by_contra h
  have := (Q_strictMono (l := l)).monotoneOn (F_spec hb).1 (F_spec ha).1 (not_lt.1 h)
  rw [(F_spec hb).2, (F_spec ha).2] at this
  linarith

theorem F_mono : Monotone (F l) := by
  intro a b hab
  rcases F_cases l a with h | ⟨hl, h⟩ | ⟨hl, h⟩
  · rcases F_cases l b with h' | ⟨hl, h'⟩ | ⟨hl, h'⟩
    · exact F_strictMonoOn.monotoneOn h h' hab
    · rw [S, if_pos hl] at h; linarith [h.1]
    · rw [F_high hl h']; exact (F_01 l a).2
  · rw [F_low hl h]; exact (F_01 l b).1
  · rw [F_high hl h, F_high hl (h.trans hab)]

/-- The density. -/
noncomputable def f (l z : ℝ) : ℝ := if z ∈ S l then 1 / q l (F l z) else 0

theorem isDist (l : ℝ) : IsDist (F l) (f l) := by
  refine isDist_of_quantile (S := S l) (E := {-(1 / l), 1 / l}) (Q := Q l) (q := q l) (by simp) isOpen_S F_mono (F_01 l)
    (fun p hp => F_Q hp) (fun z hz => F_spec hz) (fun p hp => hasDerivAt_Q hp) (fun p hp => q_pos hp)
    (fun z hz => by rw [f, if_pos hz, one_div]) (fun z hz => by rw [f, if_neg hz]) fun z hz hz' => ?_
  simp only [mem_insert_iff, mem_singleton_iff, not_or] at hz'
  rcases F_cases l z with h | ⟨hl, h⟩ | ⟨hl, h⟩
  · exact absurd h hz
  · filter_upwards [Iio_mem_nhds (h.lt_of_ne hz'.1)] with y hy
    rw [F_low hl h, F_low hl (le_of_lt hy)]
  · filter_upwards [Ioi_mem_nhds (h.lt_of_ne' hz'.2)] with y hy
    rw [F_high hl h, F_high hl (le_of_lt hy)]

theorem F_neg (l z : ℝ) : F l (-z) = 1 - F l z := by
  rcases F_cases l z with h | ⟨hl, h⟩ | ⟨hl, h⟩
  · have h1 := F_spec h
    refine F_eq ⟨sub_pos.2 h1.1.2, sub_lt_self 1 h1.1.1⟩ ?_
    rw [Q_reflect, h1.2]
  · rw [F_low hl h, F_high hl (by linarith)]; ring
  · rw [F_high hl h, F_low hl (by linarith)]; ring

theorem F_logistic (z : ℝ) : F 0 z = 1 / (Real.exp (-z) + 1) := by
  have h1 : 0 < Real.exp (-z) := Real.exp_pos _
  refine F_eq ⟨by positivity, by rw [div_lt_one (by positivity)]; linarith⟩ ?_
  have e : 1 - 1 / (Real.exp (-z) + 1) = Real.exp (-z) / (Real.exp (-z) + 1) := by field_simp; ring
  rw [Q, if_pos rfl, e, Real.log_div one_ne_zero (by positivity), Real.log_div h1.ne' (by positivity), Real.log_exp, Real.log_one]
  ring

theorem F_zero (l : ℝ) : F l 0 = 1 / 2 := F_eq (by norm_num) (Q_half l)

end tkD

end Mpsci
