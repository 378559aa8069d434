import Verif.Props.Stats.FisherExact
import Verif.Model.Stats.OddsRatio

/-! # The odds ratio that `fisher_exact` returns (C72) -/

namespace Mpsci.fisherExact

open Num

variable {a b c d : ℕ} {alt : String}

/-- the alternatives that are accepted -/
def IsAlt (alt : String) : Prop := alt = "less" ∨ alt = "greater" ∨ alt = "two-sided"

/-- the first entry of the result does not depend on the alternative -/
theorem first_eval (h : IsAlt alt) : ∃ p, fisherExact a b c d alt = .ok (oddsratio a b c d, p) := by
  have key : ∀ {alt p}, pvalue a b c d alt = .ok p → ∃ p, fisherExact a b c d alt = .ok (oddsratio a b c d, p) := by
    intro alt p hp
    unfold pvalue at hp
    generalize hr : fisherExact (a:ℤ) b c d alt = r at hp
    match r, hp with
    | .error e, hp => exact absurd hp (by simp)
    | .ok (o, q), _ =>
      refine ⟨q, ?_⟩
      suffices o = oddsratio a b c d by rw [this]
      unfold fisherExact at hr
      simp only at hr
      split_ifs at hr
      · split at hr
        · exact absurd hr (by simp)
        · revert hr
          generalize fraction _ _ = f
          intro hr
          cases f with
          | error e => exact absurd hr (by simp)
          | ok v => exact (Prod.mk.inj (Except.ok.inj hr)).1.symm
      · revert hr
        simp only [ok_bind]
        generalize fraction _ _ = f
        intro hr
        cases f with
        | error e => exact absurd hr (by simp)
        | ok v => exact (Prod.mk.inj (Except.ok.inj hr)).1.symm
      · revert hr
        simp only [ok_bind]
        generalize fraction _ _ = f
        intro hr
        cases f with
        | error e => exact absurd hr (by simp)
        | ok v => exact (Prod.mk.inj (Except.ok.inj hr)).1.symm
      · exact absurd hr (by simp)
  rcases h with rfl | rfl | rfl
  · exact key (pvalue_less a b c d)
  · exact key (pvalue_greater a b c d)
  · exact key (pvalue_two_sided a b c d)

/-- C72: with no zero in the denominator the odds ratio is `a d / (b c)`. -/
theorem odds_frac (h : IsAlt alt) (hb : 0 < b) (hc : 0 < c) :
    ∃ p, fisherExact a b c d alt = .ok (.frac ((a * d : ℚ) / (b * c)), p) := by
  obtain ⟨p, hp⟩ := first_eval (a := a) (b := b) (c := c) (d := d) h
  refine ⟨p, ?_⟩
  rw [hp, oddsratio, if_pos (mul_ne_zero (by omega) (by omega))]
  push_cast; rfl

/-- C72: with a zero in the denominator only it is infinite. -/
theorem odds_inf (h : IsAlt alt) (hbc : b = 0 ∨ c = 0) (ha : 0 < a) (hd : 0 < d) :
    ∃ p, fisherExact a b c d alt = .ok (.inf, p) := by
  obtain ⟨p, hp⟩ := first_eval (a := a) (b := b) (c := c) (d := d) h
  refine ⟨p, ?_⟩
  rw [hp, oddsratio, if_neg (by rcases hbc with rfl | rfl <;> simp), if_pos (mul_ne_zero (by omega) (by omega))]

/-- C72: with zeros in the numerator and the denominator it is `nan`. -/
theorem odds_nan (h : IsAlt alt) (hbc : b = 0 ∨ c = 0) (had : a = 0 ∨ d = 0) :
    ∃ p, fisherExact a b c d alt = .ok (.nan, p) := by
  obtain ⟨p, hp⟩ := first_eval (a := a) (b := b) (c := c) (d := d) h
  refine ⟨p, ?_⟩
  rw [hp, oddsratio, if_neg (by rcases hbc with rfl | rfl <;> simp), if_neg (by rcases had with rfl | rfl <;> simp)]

/-- the value as a number -/
noncomputable def Odds.num : Odds → Num
  | .frac q => fin q
  | .inf => pinf
  | .nan => Num.nan

/-- C72: the sample odds ratio of `odds_ratio(table, kind='sample')` is the same number. -/
theorem odds_sample (h : IsAlt alt) : ∃ o p, fisherExact a b c d alt = .ok (o, p) ∧
    oddsRatio.sampleOddsRatio ⟨a, b, c, d⟩ = .ok o.num := by
  by_cases hbc : b = 0 ∨ c = 0
  · by_cases had : a = 0 ∨ d = 0
    · obtain ⟨p, hp⟩ := odds_nan h hbc had
      refine ⟨_, p, hp, ?_⟩
      rw [oddsRatio.sampleOddsRatio, if_neg (by simp only; omega), if_pos (by simp only; omega)]; rfl
    · obtain ⟨p, hp⟩ := odds_inf (d := d) (a := a) h hbc (by omega) (by omega)
      refine ⟨_, p, hp, ?_⟩
      rw [oddsRatio.sampleOddsRatio, if_neg (by simp only; omega), if_neg (by simp only; omega)]; rfl
  · have hb : 0 < b := by omega
    have hc : 0 < c := by omega
    obtain ⟨p, hp⟩ := odds_frac (a := a) (d := d) h hb hc
    refine ⟨_, p, hp, ?_⟩
    rw [oddsRatio.sampleOddsRatio, if_pos (by simp only; omega)]
    have : ((c:ℝ) * b) ≠ 0 := by positivity
    simp only [ofInt, fin_mul, Odds.num]
    push_cast
    rw [fin_div _ this, mul_comm (c:ℝ)]

/-- Test: the three cases occur. -/
example : (∃ p, fisherExact 2 3 4 5 "less" = .ok (.frac (5 / 6), p)) ∧ (∃ p, fisherExact 2 0 4 5 "less" = .ok (.inf, p)) ∧
    ∃ p, fisherExact 0 0 4 5 "less" = .ok (.nan, p) := by
  refine ⟨?_, odds_inf (.inl rfl) (.inl rfl) (by norm_num) (by norm_num), odds_nan (.inl rfl) (.inl rfl) (.inl rfl)⟩
  have h := odds_frac (a := 2) (b := 3) (c := 4) (d := 5) (alt := "less") (.inl rfl) (by norm_num) (by norm_num)
  norm_num at h ⊢
  exact h

end Mpsci.fisherExact
