import Verif.Lemmas.Stats.OddsRatio
import Verif.Props.Stats.FisherExact

/-! Properties of `stats.odds_ratio`.  `findroot` stands for `mp.findroot(..., solver='illinois')`; what is
assumed about it is `RootFinder`. -/

namespace Mpsci.oddsRatio

open Classical Num Finset Spec

variable {fuel : ℕ} {findroot : (Num → M Num) → Num → Num → M Num} {kind alt : String}
variable {a b c d : ℕ} {conf : ℝ}

/-- The alternatives that are accepted. -/
def IsAlt (alt : String) : Prop := alt = "two-sided" ∨ alt = "less" ∨ alt = "greater"

/-- Some row or some column of `[[a, b], [c, d]]` contains only zeros. -/
def ZeroMargin (a b c d : ℕ) : Prop := a + b = 0 ∨ c + d = 0 ∨ a + c = 0 ∨ b + d = 0

/-- The table `[[a, b], [c, d]]`. -/
abbrev T (a b c d : ℕ) : Table := ⟨a, b, c, d⟩

theorem zero_iff : rowOrColumnZero (T a b c d) ↔ ZeroMargin a b c d := by
  simp only [rowOrColumnZero, ZeroMargin]; omega

theorem alt_ok (h : IsAlt alt) : ¬ (alt ≠ "two-sided" ∧ alt ≠ "less" ∧ alt ≠ "greater") := by
  rcases h with h | h | h <;> simp [h]

/-- C39 an unknown `kind` or `alternative`, a table that is not 2x2 and a table with a negative entry are
rejected. -/
theorem rejects (table : List (List ℤ)) (h : (kind ≠ "conditional" ∧ kind ≠ "sample") ∨ ¬ IsAlt alt ∨
      (¬ ∃ p q r s, table = [[p, q], [r, s]]) ∨
      ∃ p q r s, table = [[p, q], [r, s]] ∧ (p < 0 ∨ q < 0 ∨ r < 0 ∨ s < 0)) :
    oddsRatio fuel findroot table kind alt = .error .valueError := by
  unfold oddsRatio
  by_cases h1 : kind ≠ "conditional" ∧ kind ≠ "sample"
  · simp [if_pos h1]
  by_cases h2 : alt ≠ "two-sided" ∧ alt ≠ "less" ∧ alt ≠ "greater"
  · simp [if_neg h1, if_pos h2]
  have h3 : IsAlt alt := by unfold IsAlt; by_contra h; push Not at h; exact h2 h
  rcases h with h | h | h | h
  · exact absurd h h1
  · exact absurd h3 h
  · have : unpack table = .error .valueError := by
      unfold unpack
      split
      · exact absurd ⟨_, _, _, _, rfl⟩ h
      · rfl
    simp only [if_neg h1, if_neg h2, this]; rfl
  · obtain ⟨p, q, r, s, rfl, h⟩ := h
    simp only [if_neg h1, if_neg h2, unpack, ok_bind, if_pos h]; rfl

example : ¬ IsAlt "both" ∧ (¬ ∃ p q r s : ℤ, [[1, 2], [3]] = [[p, q], [r, s]]) := by simp [IsAlt]

theorem start (hk : kind = "conditional" ∨ kind = "sample") (ha : IsAlt alt) :
    oddsRatio fuel findroot [[(a:ℤ), b], [c, d]] kind alt =
      if rowOrColumnZero (T a b c d) then .ok ⟨T a b c d, kind, alt, nan, 1⟩
      else if kind = "sample" then do
        let oddsratio ← sampleOddsRatio (T a b c d)
        let logOr ← mp.log oddsratio
        let pvalue ← samplePvalue (T a b c d) logOr alt
        return ⟨T a b c d, kind, alt, oddsratio, pvalue⟩
      else do
        let oddsratio ← conditionalOddsRatio fuel findroot (T a b c d)
        let (_, p) ← fisherExact.fisherExact a b c d alt
        return ⟨T a b c d, kind, alt, oddsratio, fin p⟩ := by
  have h1 : ¬ (kind ≠ "conditional" ∧ kind ≠ "sample") := by tauto
  have h3 : ¬ ((a:ℤ) < 0 ∨ (b:ℤ) < 0 ∨ (c:ℤ) < 0 ∨ (d:ℤ) < 0) := by omega
  simp only [oddsRatio, if_neg h1, if_neg (alt_ok ha), unpack, ok_bind, if_neg h3]
  split_ifs <;> rfl

/-- C39 if a row or a column of the table is zero, the odds ratio is `nan`, the p-value is 1 and every
confidence interval is `(0, inf)`. -/
theorem zero_margin (hk : kind = "conditional" ∨ kind = "sample") (ha : IsAlt alt)
    (h : ZeroMargin a b c d) :
    ∃ r, oddsRatio fuel findroot [[(a:ℤ), b], [c, d]] kind alt = .ok r ∧ r.oddsRatio = nan ∧ r.pvalue = 1 ∧
      ∀ conf, 0 ≤ conf → conf ≤ 1 → r.ci fuel findroot (fin conf) = .ok (0, pinf) := by
  refine ⟨_, by rw [start hk ha, if_pos (zero_iff.2 h)], rfl, rfl, fun conf h0 h1 => ?_⟩
  have h2 : ¬ (fin conf < 0 ∨ fin conf > 1) := by simp; exact ⟨h0, h1⟩
  simp only [Result.ci, if_neg h2, if_pos (zero_iff.2 h)]
  split_ifs <;> rfl

example : ZeroMargin 0 0 3 4 := by simp [ZeroMargin]

/-- C39 a confidence level outside `[0, 1]` is rejected. -/
theorem ci_rejects (r : Result) (h : conf < 0 ∨ 1 < conf) :
    r.ci fuel findroot (fin conf) = .error .valueError := by
  have h2 : (fin conf < 0 ∨ fin conf > 1) := by simpa using h
  simp only [Result.ci, if_pos h2]
  split_ifs <;> rfl

/-! ### `kind='sample'` -/

theorem inv_eval {a : ℕ} (h : 0 < a) : (1 : Num) /. ofInt a = .ok (fin (1 / (a:ℝ))) := by
  have := fin_div 1 (y := ((a:ℤ):ℝ)) (by exact_mod_cast h.ne')
  simpa using this

/-- The standard error of the logarithm of the sample odds ratio. -/
noncomputable def se (a b c d : ℕ) : ℝ := Real.sqrt (1 / a + 1 / b + 1 / c + 1 / d)

/-- C39 for `kind='sample'` and positive entries, the odds ratio is `ad/(bc)` and the p-value is that of
Wald's test: the probability that a normal variable is at least as extreme as the logarithm of the odds
ratio divided by its standard error. -/
theorem sample (ha : 0 < a) (hb : 0 < b) (hc : 0 < c) (hd : 0 < d) (halt : IsAlt alt) :
    ∃ r p, oddsRatio fuel findroot [[(a:ℤ), b], [c, d]] "sample" alt = .ok r ∧
      r.oddsRatio = fin ((a:ℝ) * d / (b * c)) ∧ r.pvalue = fin p ∧
      p = (let z := Real.log ((a:ℝ) * d / (b * c)) / se a b c d
        if alt = "less" then Phi z else if alt = "greater" then 1 - Phi z
        else Phi (-|z|) + (1 - Phi |z|)) := by
  have hz : ¬ rowOrColumnZero (T a b c d) := by rw [zero_iff, ZeroMargin]; omega
  have aR : (0:ℝ) < a := by exact_mod_cast ha
  have bR : (0:ℝ) < b := by exact_mod_cast hb
  have cR : (0:ℝ) < c := by exact_mod_cast hc
  have dR : (0:ℝ) < d := by exact_mod_cast hd
  have e1 : sampleOddsRatio (T a b c d) = .ok (fin ((a:ℝ) * d / (b * c))) := by
    have h : ((T a b c d).c > 0 ∧ (T a b c d).b > 0) := by simp; omega
    rw [sampleOddsRatio, if_pos h]
    have := fin_div ((a:ℝ) * d) (y := (c:ℝ) * b) (by positivity)
    rw [mul_comm (b:ℝ)]
    simpa using this
  have e2 : mp.log (fin ((a:ℝ) * d / (b * c))) = .ok (fin (Real.log ((a:ℝ) * d / (b * c)))) :=
    mp.log_pos (by positivity)
  have hse : 0 < se a b c d := Real.sqrt_pos.2 (by positivity)
  have e3 : mp.sqrt (fin (1 / (a:ℝ)) + fin (1 / (b:ℝ)) + fin (1 / (c:ℝ)) + fin (1 / (d:ℝ))) =
      .ok (fin (se a b c d)) := by
    rw [fin_add, fin_add, fin_add]; exact mp.sqrt_nonneg (by positivity)
  have e4 : ∀ x : ℝ, fin x /. fin (se a b c d) = .ok (fin (x / se a b c d)) := fun x => fin_div _ hse.ne'
  have e5 : ∀ l : ℝ, samplePvalue (T a b c d) (fin l) alt = .ok (fin (
      (let z := l / se a b c d
        if alt = "less" then Phi z else if alt = "greater" then 1 - Phi z
        else Phi (-|z|) + (1 - Phi |z|)))) := by
    intro l
    rw [samplePvalue]
    simp only [T, inv_eval ha, inv_eval hb, inv_eval hc, inv_eval hd, ok_bind, e3]
    rcases halt with rfl | rfl | rfl
    · have : (-Num.abs (fin l)) = fin (-|l|) := rfl
      simp only [if_true, this, e4, ok_bind, mp.ncdf_fin, String.reduceEq, if_false, ← Phi_neg,
        abs_div, abs_of_pos hse, neg_div]
      rw [← two_mul]; rfl
    · simp only [String.reduceEq, if_false, if_true, e4, ok_bind, mp.ncdf_fin]; rfl
    · simp only [String.reduceEq, if_false, if_true, neg_fin, e4, ok_bind, mp.ncdf_fin, neg_div, Phi_neg]; rfl
  refine ⟨⟨T a b c d, "sample", alt, _, _⟩, _, ?_, rfl, rfl, rfl⟩
  rw [start (Or.inr rfl) halt, if_neg hz]
  simp only [if_true, e1, e2, ok_bind, e5]; rfl

example : (0 < 3 ∧ 0 < 5 ∧ 0 < 2 ∧ 0 < 7) ∧ IsAlt "less" := by simp [IsAlt]

/-- C39 is violated: for `kind='sample'`, a table with a zero entry raises `ZeroDivisionError` although no
row or column is zero, and no odds ratio is returned. -/
theorem sample_zero_fails (halt : IsAlt alt) (hz : ¬ ZeroMargin a b c d)
    (h : a = 0 ∨ b = 0 ∨ c = 0 ∨ d = 0) :
    oddsRatio fuel findroot [[(a:ℤ), b], [c, d]] "sample" alt = .error .zeroDivision := by
  have hz' : ¬ rowOrColumnZero (T a b c d) := by rwa [zero_iff]
  rw [start (Or.inr rfl) halt, if_neg hz', if_pos rfl]
  have e5 : ∀ l, samplePvalue (T a b c d) l alt = .error .zeroDivision := by
    intro l
    have z0 : (1 : Num) /. ofInt ((0:ℕ):ℤ) = .error .zeroDivision := by
      simpa using fin_div_zero 1
    rw [samplePvalue]
    rcases Nat.eq_zero_or_pos a with h1 | h1
    · simp only [T, h1, z0]; rfl
    rcases Nat.eq_zero_or_pos b with h2 | h2
    · simp only [T, inv_eval h1, ok_bind, h2, z0]; rfl
    rcases Nat.eq_zero_or_pos c with h3 | h3
    · simp only [T, inv_eval h1, inv_eval h2, ok_bind, h3, z0]; rfl
    have h4 : d = 0 := by omega
    simp only [T, inv_eval h1, inv_eval h2, inv_eval h3, ok_bind, h4, z0]; rfl
  have e1 : ∃ o l, sampleOddsRatio (T a b c d) = .ok o ∧ mp.log o = .ok l := by
    by_cases hcb : 0 < c ∧ 0 < b
    · have h1 : ((T a b c d).c > 0 ∧ (T a b c d).b > 0) := by simp; omega
      have cR : (0:ℝ) < c := by exact_mod_cast hcb.1
      have bR : (0:ℝ) < b := by exact_mod_cast hcb.2
      refine ⟨0, ninf, ?_, by simp⟩
      rw [sampleOddsRatio, if_pos h1]
      have h2 : (a:ℝ) * d = 0 := by
        have : a = 0 ∨ d = 0 := by omega
        rcases this with h | h <;> simp [h]
      have := fin_div ((a:ℝ) * d) (y := (c:ℝ) * b) (by positivity)
      rw [h2, zero_div] at this
      simp only [T, ofInt_def, fin_mul, Int.cast_natCast, h2]
      exact this
    · have h1 : ¬ ((T a b c d).c > 0 ∧ (T a b c d).b > 0) := by simp; omega
      have h2 : ¬ ((T a b c d).a = 0 ∨ (T a b c d).d = 0) := by
        unfold ZeroMargin at hz; simp; omega
      refine ⟨pinf, pinf, ?_, by simp⟩
      rw [sampleOddsRatio, if_neg h1, if_neg h2]; rfl
  obtain ⟨o, l, e1, e2⟩ := e1
  simp only [e1, e2, ok_bind, e5]; rfl

example : ¬ ZeroMargin 0 5 2 7 := by simp [ZeroMargin]

/-- C39 is violated: for `kind='sample'` no confidence interval can be computed, `odds_ratio_ci` always
raises `TypeError`. -/
theorem sample_ci_fails (ha : 0 < a) (hb : 0 < b) (hc : 0 < c) (hd : 0 < d) (h0 : 0 ≤ conf) (h1 : conf ≤ 1)
    (o p : Num) :
    Result.ci fuel findroot ⟨T a b c d, "sample", alt, o, p⟩ (fin conf) = .error .typeError := by
  have hz : ¬ rowOrColumnZero (T a b c d) := by rw [zero_iff, ZeroMargin]; omega
  have h2 : ¬ (fin conf < 0 ∨ fin conf > 1) := by simp; exact ⟨h0, h1⟩
  have aR : (0:ℝ) < a := by exact_mod_cast ha
  have bR : (0:ℝ) < b := by exact_mod_cast hb
  have cR : (0:ℝ) < c := by exact_mod_cast hc
  have dR : (0:ℝ) < d := by exact_mod_cast hd
  have e1 : sampleOddsRatio (T a b c d) = .ok (fin ((a:ℝ) * d / (c * b))) := by
    have h : ((T a b c d).c > 0 ∧ (T a b c d).b > 0) := by simp; omega
    rw [sampleOddsRatio, if_pos h]
    have := fin_div ((a:ℝ) * d) (y := (c:ℝ) * b) (by positivity)
    simpa using this
  have e2 : mp.log (fin ((a:ℝ) * d / (c * b))) = .ok (fin (Real.log ((a:ℝ) * d / (c * b)))) :=
    mp.log_pos (by positivity)
  simp only [Result.ci, String.reduceEq, if_false, if_neg h2, if_neg hz, sampleOddsRatioCi, e1, ok_bind, e2]
  simp only [T, inv_eval ha, inv_eval hb, inv_eval hc, inv_eval hd, ok_bind]; rfl

/-! ### `kind='conditional'` -/

theorem pvalue_ok (a b c d : ℕ) (halt : IsAlt alt) :
    ∃ o p, fisherExact.fisherExact a b c d alt = .ok (o, p) ∧ fisherExact.pvalue a b c d alt = .ok p := by
  have h : ∃ p, fisherExact.pvalue a b c d alt = .ok p := by
    rcases halt with rfl | rfl | rfl
    · exact ⟨_, fisherExact.pvalue_two_sided a b c d⟩
    · exact ⟨_, fisherExact.pvalue_less a b c d⟩
    · exact ⟨_, fisherExact.pvalue_greater a b c d⟩
  obtain ⟨p, hp⟩ := h
  rw [fisherExact.pvalue] at hp
  match e : fisherExact.fisherExact a b c d alt with
  | .error _ => rw [e] at hp; exact absurd hp (by simp [bind, Except.bind])
  | .ok (o, q) =>
    rw [e] at hp
    have hq : q = p := Except.ok.inj hp
    exact ⟨o, p, by rw [hq], by rw [fisherExact.pvalue, e]; exact hp⟩

theorem cond_start (halt : IsAlt alt) (hz : ¬ ZeroMargin a b c d) {v : Num}
    (h : conditionalOddsRatio fuel findroot (T a b c d) = .ok v) :
    ∃ p, oddsRatio fuel findroot [[(a:ℤ), b], [c, d]] "conditional" alt =
      .ok ⟨T a b c d, "conditional", alt, v, fin (p:ℚ)⟩ ∧ fisherExact.pvalue a b c d alt = .ok p := by
  obtain ⟨o, p, e, hp⟩ := pvalue_ok a b c d halt
  refine ⟨p, ?_, hp⟩
  have hz' : ¬ rowOrColumnZero (T a b c d) := by rwa [zero_iff]
  rw [start (Or.inl rfl) halt, if_neg hz', if_neg (by decide), h, ok_bind, e, ok_bind]; rfl

theorem cond_eval (hz : ¬ ZeroMargin a b c d) :
    conditionalOddsRatio fuel findroot (T a b c d) =
      if a = 0 ∨ d = 0 then .ok 0 else if b = 0 ∨ c = 0 then .ok pinf else
      ncHypergeomMeanInverse fuel findroot a (((a + b) + (c + d) : ℕ) : ℤ) ((a + b : ℕ) : ℤ)
        ((a + c : ℕ) : ℤ) := by
  unfold ZeroMargin at hz
  have hn : a + c ≤ (a + b) + (c + d) := by omega
  have hV : hypergeometric.Valid (((a + b) + (c + d) : ℕ) : ℤ) ((a + b : ℕ) : ℤ) ((a + c : ℕ) : ℤ) := by
    unfold hypergeometric.Valid; omega
  have e0 : (T a b c d).a + (T a b c d).b + (T a b c d).c + (T a b c d).d = (((a + b) + (c + d) : ℕ) : ℤ) := by
    simp only [T]; push_cast; ring
  have e1 : (T a b c d).a + (T a b c d).b = ((a + b : ℕ) : ℤ) := by simp only [T]; push_cast; ring
  have e2 : (T a b c d).a + (T a b c d).c = ((a + c : ℕ) : ℤ) := by simp only [T]; push_cast; ring
  have es : hypergeometric.support (((a + b) + (c + d) : ℕ) : ℤ) ((a + b : ℕ) : ℤ) ((a + c : ℕ) : ℤ) =
      .ok (py.range (fishers_noncentral_hypergeometric.lo (c + d) (a + c))
        (fishers_noncentral_hypergeometric.hi (a + b) (a + c))) :=
    fishers_noncentral_hypergeometric.support_eval hn
  obtain ⟨l, p, h1, -⟩ := hypergeometric.supportPmf_spec hV
  have hl : l = py.range (fishers_noncentral_hypergeometric.lo (c + d) (a + c))
        (fishers_noncentral_hypergeometric.hi (a + b) (a + c)) := by
    have h2 := h1
    simp only [hypergeometric.supportPmf, es, ok_bind] at h2
    match e : (py.range (fishers_noncentral_hypergeometric.lo (c + d) (a + c))
        (fishers_noncentral_hypergeometric.hi (a + b) (a + c))).mapM fun k =>
          hypergeometric.pmf k (((a + b) + (c + d) : ℕ) : ℤ) ((a + b : ℕ) : ℤ) ((a + c : ℕ) : ℤ) with
    | .error _ => rw [e] at h2; exact absurd h2 (by simp [bind, Except.bind])
    | .ok q => rw [e] at h2; exact (congrArg Prod.fst (Except.ok.inj h2)).symm
  have hlt := fishers_noncentral_hypergeometric.lo_lt_hi hn
  simp only [conditionalOddsRatio, e0]
  simp only [e1, e2, h1, ok_bind, hl, fishers_noncentral_hypergeometric.item0 hlt, py.item_range_last hlt]
  have i1 : ((T a b c d).a = fishers_noncentral_hypergeometric.lo (c + d) (a + c)) ↔ (a = 0 ∨ d = 0) := by
    simp only [T, fishers_noncentral_hypergeometric.lo]; omega
  have i2 : ((T a b c d).a = fishers_noncentral_hypergeometric.hi (a + b) (a + c) - 1) ↔ (b = 0 ∨ c = 0) := by
    simp only [T, fishers_noncentral_hypergeometric.hi]; omega
  simp only [i1, i2]
  split_ifs <;> rfl

/-- C39 the conditional odds ratio is 0 when `a` or `d` is 0, as is the sample odds ratio `ad/(bc)`; the p-value is
that of Fisher's exact test. -/
theorem conditional_zero (halt : IsAlt alt) (hz : ¬ ZeroMargin a b c d) (h : a = 0 ∨ d = 0) :
    ∃ r p, oddsRatio fuel findroot [[(a:ℤ), b], [c, d]] "conditional" alt = .ok r ∧ r.oddsRatio = 0 ∧
      r.pvalue = fin (p:ℚ) ∧ fisherExact.pvalue a b c d alt = .ok p := by
  obtain ⟨p, h1, h2⟩ := cond_start (fuel := fuel) (findroot := findroot) halt hz
    (by rw [cond_eval hz, if_pos h])
  exact ⟨_, p, h1, rfl, rfl, h2⟩

/-- C39 it is `inf` when `b` or `c` is 0. -/
theorem conditional_inf (halt : IsAlt alt) (hz : ¬ ZeroMargin a b c d) (h : b = 0 ∨ c = 0) :
    ∃ r p, oddsRatio fuel findroot [[(a:ℤ), b], [c, d]] "conditional" alt = .ok r ∧ r.oddsRatio = pinf ∧
      r.pvalue = fin (p:ℚ) ∧ fisherExact.pvalue a b c d alt = .ok p := by
  have h' : ¬ (a = 0 ∨ d = 0) := by unfold ZeroMargin at hz; omega
  obtain ⟨p, h1, h2⟩ := cond_start (fuel := fuel) (findroot := findroot) halt hz
    (by rw [cond_eval hz, if_neg h', if_pos h])
  exact ⟨_, p, h1, rfl, rfl, h2⟩

example : ¬ ZeroMargin 0 5 2 7 ∧ ¬ ZeroMargin 5 0 2 7 := by simp [ZeroMargin]

theorem G_mean {K R n : ℕ} {x : ℝ} (hx : 0 < x) (hn : n ≤ K + R) :
    G (fun k => (k:ℝ)) K R n x = condMean K R n x := G_eq _ hx hn

/-- C39 otherwise it is the conditional maximum likelihood estimate: the only odds ratio for which the expected
value of the upper left cell is the observed value, which is also the odds ratio under which the observed
table is most likely.  The search ends. -/
theorem conditional (hr : RootFinder findroot) (halt : IsAlt alt) (ha : 0 < a) (hb : 0 < b) (hc : 0 < c)
    (hd : 0 < d) :
    ∃ N x, OnlySolution (condMean (a + b) (c + d) (a + c)) a x ∧
      (∀ x', 0 < x' → condProb (a + b) (c + d) (a + c) x' a ≤ condProb (a + b) (c + d) (a + c) x a) ∧
      ∃ r p, (∀ fuel ≥ N, oddsRatio fuel findroot [[(a:ℤ), b], [c, d]] "conditional" alt = .ok r) ∧
        r.oddsRatio = fin x ∧ r.pvalue = fin (p:ℚ) ∧ fisherExact.pvalue a b c d alt = .ok p := by
  have hz : ¬ ZeroMargin a b c d := by unfold ZeroMargin; omega
  have hn : a + c ≤ (a + b) + (c + d) := by omega
  obtain ⟨N, x, ⟨h0, h1, h2⟩, hN⟩ := solve_G hr (w := fun k => (k:ℝ)) (v := (a:ℝ)) hn
    (f := fun nc => do
      return (← fishers_noncentral_hypergeometric.mean nc (((a + b) + (c + d) : ℕ) : ℤ) ((a + b : ℕ) : ℤ)
        ((a + c : ℕ) : ℤ)) - ofInt a)
    (fun i j h => Nat.cast_le.2 h)
    (fun y hy => by rw [mean_eval hy hn]; simp)
    (by exact_mod_cast (by omega : a + c - (c + d) < a))
    (by exact_mod_cast (by omega : a < min (a + c) (a + b)))
  refine ⟨N, x, ⟨h0, by rw [← G_mean h0 hn, h1], fun r' hr' hv => h2 r' hr' (by rw [G_mean hr' hn, hv])⟩,
    fun x' hx' => ?_, ?_⟩
  · rw [← F_eq h0 hn (by omega), ← F_eq hx' hn (by omega)]
    exact likelihood h0 hx' hn (by omega) h1
  · have e : ∀ fuel ≥ N, conditionalOddsRatio fuel findroot (T a b c d) = .ok (fin x) := by
      intro fuel hf
      rw [cond_eval hz, if_neg (by omega), if_neg (by omega)]
      exact hN fuel hf
    obtain ⟨p, -, hp⟩ := cond_start halt hz (e N le_rfl)
    refine ⟨⟨T a b c d, "conditional", alt, fin x, fin (p:ℚ)⟩, p, fun fuel hf => ?_, rfl, rfl, hp⟩
    obtain ⟨p', h3, h4⟩ := cond_start halt hz (e fuel hf)
    rw [hp] at h4
    rw [h3, Except.ok.inj h4]

example : (0 < 3 ∧ 0 < 5 ∧ 0 < 2 ∧ 0 < 7) ∧ IsAlt "two-sided" ∧ ∃ findroot, RootFinder findroot :=
  ⟨by simp, by simp [IsAlt], exists_rootFinder⟩

/-! ### The confidence intervals -/

theorem G_le {K R n x : ℕ} {y : ℝ} (hy : 0 < y) (hn : n ≤ K + R) (hx : x ≤ n) :
    G (fun k => if (k:ℤ) ≤ x then 1 else 0) K R n y = condLe K R n x y := by
  rw [G_eq _ hy hn, condLe]
  simp only [ite_mul, one_mul, zero_mul, Nat.cast_le]
  rw [← sum_filter]
  refine sum_congr ?_ fun _ _ => rfl
  ext k; simp only [mem_filter, mem_range, mem_Icc]; omega

theorem G_ge {K R n x : ℕ} {y : ℝ} (hy : 0 < y) (hn : n ≤ K + R) :
    G (fun k => if (x:ℤ) - 1 < k then 1 else 0) K R n y = condGe K R n x y := by
  rw [G_eq _ hy hn, condGe]
  simp only [ite_mul, one_mul, zero_mul]
  rw [← sum_filter]
  refine sum_congr ?_ fun _ _ => rfl
  ext k; simp only [mem_filter, mem_range, mem_Icc]; omega

theorem sample_eval (hz : ¬ ZeroMargin a b c d) :
    sampleOddsRatio (T a b c d) =
      .ok (if b = 0 ∨ c = 0 then pinf else fin ((a:ℝ) * d / (c * b))) := by
  by_cases h : b = 0 ∨ c = 0
  · have h1 : ¬ ((T a b c d).c > 0 ∧ (T a b c d).b > 0) := by simp; omega
    have h2 : ¬ ((T a b c d).a = 0 ∨ (T a b c d).d = 0) := by
      unfold ZeroMargin at hz; simp; omega
    rw [sampleOddsRatio, if_neg h1, if_neg h2, if_pos h]; rfl
  · have h1 : ((T a b c d).c > 0 ∧ (T a b c d).b > 0) := by simp; omega
    have cR : (0:ℝ) < c := by exact_mod_cast (by omega : 0 < c)
    have bR : (0:ℝ) < b := by exact_mod_cast (by omega : 0 < b)
    rw [sampleOddsRatio, if_pos h1, if_neg h]
    have := fin_div ((a:ℝ) * d) (y := (c:ℝ) * b) (by positivity)
    simpa using this

/-- The function solved for the upper limit. -/
theorem upper_fun {α : ℝ} {y : ℝ} (hy : 0 < y) :
    (do return -(← fishers_noncentral_hypergeometric.cdf (T a b c d).a (fin y)
      ((T a b c d).a + (T a b c d).b + (T a b c d).c + (T a b c d).d) ((T a b c d).a + (T a b c d).b)
      ((T a b c d).a + (T a b c d).c)) + fin α : M Num) =
      .ok (fin (-condLe (a + b) (c + d) (a + c) a y + α)) := by
  have hn : a + c ≤ (a + b) + (c + d) := by omega
  have e0 : (T a b c d).a + (T a b c d).b + (T a b c d).c + (T a b c d).d = (((a + b) + (c + d) : ℕ) : ℤ) := by
    simp only [T]; push_cast; ring
  have e1 : (T a b c d).a + (T a b c d).b = ((a + b : ℕ) : ℤ) := by simp only [T]; push_cast; ring
  have e2 : (T a b c d).a + (T a b c d).c = ((a + c : ℕ) : ℤ) := by simp only [T]; push_cast; ring
  rw [e0, e1, e2, cdf_eval hy hn, G_le hy hn (by omega)]; rfl

theorem lower_fun {α : ℝ} {y : ℝ} (hy : 0 < y) :
    (do return (← fishers_noncentral_hypergeometric.sf ((T a b c d).a - 1) (fin y)
      ((T a b c d).a + (T a b c d).b + (T a b c d).c + (T a b c d).d) ((T a b c d).a + (T a b c d).b)
      ((T a b c d).a + (T a b c d).c)) - fin α : M Num) =
      .ok (fin (condGe (a + b) (c + d) (a + c) a y - α)) := by
  have hn : a + c ≤ (a + b) + (c + d) := by omega
  have e0 : (T a b c d).a + (T a b c d).b + (T a b c d).c + (T a b c d).d = (((a + b) + (c + d) : ℕ) : ℤ) := by
    simp only [T]; push_cast; ring
  have e1 : (T a b c d).a + (T a b c d).b = ((a + b : ℕ) : ℤ) := by simp only [T]; push_cast; ring
  have e2 : (T a b c d).a + (T a b c d).c = ((a + c : ℕ) : ℤ) := by simp only [T]; push_cast; ring
  rw [e0, e1, e2, sf_eval hy hn, G_ge hy hn]; rfl

theorem not_inf (h : ¬ (b = 0 ∨ c = 0)) (x : ℝ) :
    ¬ ((if b = 0 ∨ c = 0 then pinf else fin x) =. pinf ∨ (if b = 0 ∨ c = 0 then pinf else fin x) =. ninf) := by
  rw [if_neg h]; simp

theorem upper_solve (hz : ¬ ZeroMargin a b c d) (h : ¬ (b = 0 ∨ c = 0)) (α : ℝ) :
    ciUpper fuel findroot (T a b c d) (fin α) = solve fuel findroot (fun nc => do
      return -(← fishers_noncentral_hypergeometric.cdf (T a b c d).a nc
      ((T a b c d).a + (T a b c d).b + (T a b c d).c + (T a b c d).d) ((T a b c d).a + (T a b c d).b)
      ((T a b c d).a + (T a b c d).c)) + fin α) := by
  rw [ciUpper, sample_eval hz]
  simp only [ok_bind, if_neg (not_inf h _)]

theorem lower_solve (hz : ¬ ZeroMargin a b c d) (h : ¬ (a = 0 ∨ d = 0)) (α : ℝ) :
    ciLower fuel findroot (T a b c d) (fin α) = solve fuel findroot (fun nc => do
      return (← fishers_noncentral_hypergeometric.sf ((T a b c d).a - 1) nc
      ((T a b c d).a + (T a b c d).b + (T a b c d).c + (T a b c d).d) ((T a b c d).a + (T a b c d).b)
      ((T a b c d).a + (T a b c d).c)) - fin α) := by
  have h1 : ¬ ((if b = 0 ∨ c = 0 then pinf else fin ((a:ℝ) * d / (c * b))) =. 0) := by
    split_ifs with hbc
    · simp
    · have aR : (a:ℝ) ≠ 0 := by exact_mod_cast (by omega : a ≠ 0)
      have dR : (d:ℝ) ≠ 0 := by exact_mod_cast (by omega : d ≠ 0)
      have bR : (b:ℝ) ≠ 0 := by exact_mod_cast (by omega : b ≠ 0)
      have cR : (c:ℝ) ≠ 0 := by exact_mod_cast (by omega : c ≠ 0)
      simp [aR, bR, cR, dR]
  rw [ciLower, sample_eval hz]
  simp only [ok_bind, if_neg h1]

/-- `x` is the upper confidence limit at level `α`: the odds ratio under which a cell of at most the
observed one has probability `α`. -/
def IsUpper (a b c d : ℕ) (α : ℝ) (v : Num) : Prop :=
  if b = 0 ∨ c = 0 then v = pinf
  else ∃ x, v = fin x ∧ OnlySolution (condLe (a + b) (c + d) (a + c) a) α x

/-- `x` is the lower confidence limit at level `α`: the odds ratio under which a cell of at least the
observed one has probability `α`. -/
def IsLower (a b c d : ℕ) (α : ℝ) (v : Num) : Prop :=
  if a = 0 ∨ d = 0 then v = 0
  else ∃ x, v = fin x ∧ OnlySolution (condGe (a + b) (c + d) (a + c) a) α x

theorem upper (hr : RootFinder findroot) (hz : ¬ ZeroMargin a b c d) {α : ℝ} (h0 : 0 < α) (h1 : α < 1) :
    ∃ N v, IsUpper a b c d α v ∧ ∀ fuel ≥ N, ciUpper fuel findroot (T a b c d) (fin α) = .ok v := by
  by_cases h : b = 0 ∨ c = 0
  · refine ⟨0, pinf, by rw [IsUpper, if_pos h], fun fuel _ => ?_⟩
    rw [ciUpper, sample_eval hz, if_pos h]; simp
  · have hn : a + c ≤ (a + b) + (c + d) := by omega
    have hneg : ∀ y, G (fun k => -(if (k:ℤ) ≤ a then (1:ℝ) else 0)) (a + b) (c + d) (a + c) y =
        -G (fun k => (if (k:ℤ) ≤ a then (1:ℝ) else 0)) (a + b) (c + d) (a + c) y := by
      intro y; simp only [G]; rw [← sum_neg_distrib]; exact sum_congr rfl fun k _ => by ring
    obtain ⟨N, x, ⟨h2, h3, h4⟩, hN⟩ := solve_G hr (w := fun k => -(if (k:ℤ) ≤ a then (1:ℝ) else 0)) (v := -α)
      (f := fun nc => do
        return -(← fishers_noncentral_hypergeometric.cdf (T a b c d).a nc
        ((T a b c d).a + (T a b c d).b + (T a b c d).c + (T a b c d).d) ((T a b c d).a + (T a b c d).b)
        ((T a b c d).a + (T a b c d).c)) + fin α) hn
      (fun i j hij => by
        show -(if (i:ℤ) ≤ a then (1:ℝ) else 0) ≤ -(if (j:ℤ) ≤ a then (1:ℝ) else 0)
        split_ifs <;> first | omega | norm_num)
      (fun y hy => by rw [upper_fun hy, hneg, G_le hy hn (by omega)]; congr 2; ring)
      (by rw [if_pos (by omega)]; linarith) (by rw [if_neg (by omega)]; linarith)
    refine ⟨N, fin x, ?_, fun fuel hf => ?_⟩
    · rw [IsUpper, if_neg h]
      refine ⟨x, rfl, h2, ?_, fun r' hr' hv => h4 r' hr' ?_⟩
      · rw [hneg, G_le h2 hn (by omega)] at h3; linarith
      · rw [hneg, G_le hr' hn (by omega), hv]
    · rw [upper_solve hz h]; exact hN fuel hf

theorem lower (hr : RootFinder findroot) (hz : ¬ ZeroMargin a b c d) {α : ℝ} (h0 : 0 < α) (h1 : α < 1) :
    ∃ N v, IsLower a b c d α v ∧ ∀ fuel ≥ N, ciLower fuel findroot (T a b c d) (fin α) = .ok v := by
  by_cases h : a = 0 ∨ d = 0
  · refine ⟨0, 0, by rw [IsLower, if_pos h], fun fuel _ => ?_⟩
    have h' : ¬ (b = 0 ∨ c = 0) := by unfold ZeroMargin at hz; omega
    have : (a:ℝ) * d / (c * b) = 0 := by rcases h with h | h <;> simp [h]
    rw [ciLower, sample_eval hz, if_neg h', this]; simp
  · have hn : a + c ≤ (a + b) + (c + d) := by omega
    obtain ⟨N, x, ⟨h2, h3, h4⟩, hN⟩ := solve_G hr (w := fun k => (if (a:ℤ) - 1 < k then (1:ℝ) else 0)) (v := α)
      (f := fun nc => do
        return (← fishers_noncentral_hypergeometric.sf ((T a b c d).a - 1) nc
        ((T a b c d).a + (T a b c d).b + (T a b c d).c + (T a b c d).d) ((T a b c d).a + (T a b c d).b)
        ((T a b c d).a + (T a b c d).c)) - fin α) hn
      (fun i j hij => by
        show (if (a:ℤ) - 1 < i then (1:ℝ) else 0) ≤ (if (a:ℤ) - 1 < j then (1:ℝ) else 0)
        split_ifs <;> first | omega | norm_num)
      (fun y hy => by rw [lower_fun hy, G_ge hy hn])
      (by rw [if_neg (by omega)]; linarith) (by rw [if_pos (by omega)]; linarith)
    refine ⟨N, fin x, ?_, fun fuel hf => ?_⟩
    · rw [IsLower, if_neg h]
      refine ⟨x, rfl, h2, ?_, fun r' hr' hv => h4 r' hr' ?_⟩
      · rwa [G_ge h2 hn] at h3
      · rw [G_ge hr' hn, hv]
    · rw [lower_solve hz h]; exact hN fuel hf

theorem ci_start {o p : Num} (hz : ¬ ZeroMargin a b c d) (h0 : 0 ≤ conf) (h1 : conf ≤ 1) :
    Result.ci fuel findroot ⟨T a b c d, "conditional", alt, o, p⟩ (fin conf) =
      conditionalOddsRatioCi fuel findroot (T a b c d) (fin conf) alt := by
  have h2 : ¬ (fin conf < 0 ∨ fin conf > 1) := by simp; exact ⟨h0, h1⟩
  have hz' : ¬ rowOrColumnZero (T a b c d) := by rwa [zero_iff]
  simp only [Result.ci, if_true, if_neg h2, if_neg hz']

/-- C39 the two-sided confidence interval of the conditional odds ratio, for every confidence level below 1. -/
theorem ci_two_sided (hr : RootFinder findroot) (hz : ¬ ZeroMargin a b c d) (h0 : 0 ≤ conf) (h1 : conf < 1)
    (o p : Num) :
    ∃ N l u, IsLower a b c d ((1 - conf) / 2) l ∧ IsUpper a b c d ((1 - conf) / 2) u ∧ ∀ fuel ≥ N,
      Result.ci fuel findroot ⟨T a b c d, "conditional", "two-sided", o, p⟩ (fin conf) = .ok (l, u) := by
  obtain ⟨N1, l, hl, hN1⟩ := lower hr hz (α := (1 - conf) / 2) (by linarith) (by linarith)
  obtain ⟨N2, u, hu, hN2⟩ := upper hr hz (α := (1 - conf) / 2) (by linarith) (by linarith)
  refine ⟨max N1 N2, l, u, hl, hu, fun fuel hf => ?_⟩
  have e : (1 - fin conf : Num) /. 2 = .ok (fin ((1 - conf) / 2)) := fin_div (1 - conf) two_ne_zero
  rw [ci_start hz h0 h1.le, conditionalOddsRatioCi, if_pos rfl, e, ok_bind,
    hN1 fuel (by omega), ok_bind, hN2 fuel (by omega)]; rfl

/-- C39 the one-sided intervals. -/
theorem ci_less (hr : RootFinder findroot) (hz : ¬ ZeroMargin a b c d) (h0 : 0 < conf) (h1 : conf < 1)
    (o p : Num) :
    ∃ N u, IsUpper a b c d (1 - conf) u ∧ ∀ fuel ≥ N,
      Result.ci fuel findroot ⟨T a b c d, "conditional", "less", o, p⟩ (fin conf) = .ok (0, u) := by
  obtain ⟨N, u, hu, hN⟩ := upper hr hz (α := 1 - conf) (by linarith) (by linarith)
  refine ⟨N, u, hu, fun fuel hf => ?_⟩
  have e : (1 - fin conf : Num) = fin (1 - conf) := rfl
  rw [ci_start hz h0.le h1.le, conditionalOddsRatioCi, if_neg (by decide), if_pos rfl, e,
    hN fuel hf]; rfl

/-- C39 the one-sided intervals. -/
theorem ci_greater (hr : RootFinder findroot) (hz : ¬ ZeroMargin a b c d) (h0 : 0 < conf) (h1 : conf < 1)
    (o p : Num) :
    ∃ N l, IsLower a b c d (1 - conf) l ∧ ∀ fuel ≥ N,
      Result.ci fuel findroot ⟨T a b c d, "conditional", "greater", o, p⟩ (fin conf) = .ok (l, pinf) := by
  obtain ⟨N, l, hl, hN⟩ := lower hr hz (α := 1 - conf) (by linarith) (by linarith)
  refine ⟨N, l, hl, fun fuel hf => ?_⟩
  have e : (1 - fin conf : Num) = fin (1 - conf) := rfl
  rw [ci_start hz h0.le h1.le, conditionalOddsRatioCi, if_neg (by decide), if_neg (by decide), e,
    hN fuel hf]; rfl

example : ¬ ZeroMargin 3 5 2 7 ∧ (0:ℝ) ≤ 0.95 ∧ (0.95:ℝ) < 1 := by norm_num [ZeroMargin]

theorem condLe_anti (hb : 0 < b) (hc : 0 < c) {x y : ℝ} (hx : 0 < x) (hxy : x < y) :
    condLe (a + b) (c + d) (a + c) a y < condLe (a + b) (c + d) (a + c) a x := by
  have hn : a + c ≤ (a + b) + (c + d) := by omega
  obtain ⟨e1, e2, -, -⟩ := ends hn
  rw [← G_le hx hn (by omega), ← G_le (hx.trans hxy) hn (by omega)]
  have := G_lt (w := fun k => 1 - (if (k:ℤ) ≤ a then (1:ℝ) else 0)) hx hxy hn
    (fun i j hij => by
      show 1 - (if (i:ℤ) ≤ a then (1:ℝ) else 0) ≤ 1 - (if (j:ℤ) ≤ a then (1:ℝ) else 0)
      split_ifs <;> first | omega | norm_num)
    (l := a + c - (c + d)) (h := min (a + c) (a + b))
    (by rw [if_pos (by omega), if_neg (by omega)]; norm_num) (by omega) (by omega) e1 e2
  rw [G_compl _ hx hn, G_compl _ (hx.trans hxy) hn] at this
  linarith

theorem le_add_ge {x : ℝ} (hx : 0 < x) : condLe (a + b) (c + d) (a + c) a x +
    condGe (a + b) (c + d) (a + c) a x = 1 + condProb (a + b) (c + d) (a + c) x a := by
  have hn : a + c ≤ (a + b) + (c + d) := by omega
  have h1 : G (fun _ => 1) (a + b) (c + d) (a + c) x = 1 := G_one hx hn
  rw [← h1, G_eq _ hx hn, ← G_le hx hn (by omega), ← G_ge hx hn, G_eq _ hx hn, G_eq _ hx hn,
    ← sum_add_distrib]
  have : condProb (a + b) (c + d) (a + c) x a = ∑ k ∈ range (a + c + 1),
      (if k = a then (1:ℝ) else 0) * condProb (a + b) (c + d) (a + c) x k := by
    simp only [ite_mul, one_mul, zero_mul]
    rw [sum_ite_eq' , if_pos (mem_range.2 (by omega))]
  rw [this, ← sum_add_distrib]
  refine sum_congr rfl fun k _ => ?_
  split_ifs <;> first | omega | ring

/-- C39 the lower end of the two-sided interval is below the upper end. -/
theorem lower_lt_upper (hz : ¬ ZeroMargin a b c d) {α : ℝ} (h1 : α ≤ 1 / 2) {l u : Num}
    (hl : IsLower a b c d α l) (hu : IsUpper a b c d α u) : l < u := by
  unfold ZeroMargin at hz
  unfold IsLower at hl
  unfold IsUpper at hu
  split_ifs at hl hu with h2 h3 h3
  · omega
  · obtain ⟨x, rfl, hx⟩ := hu; rw [hl]; simpa using hx.1
  · obtain ⟨x, rfl, hx⟩ := hl; rw [hu]; simp
  · obtain ⟨x, rfl, hx, hx1, -⟩ := hl
    obtain ⟨y, rfl, hy, hy1, -⟩ := hu
    rw [fin_lt]
    by_contra hcon
    have hle : condLe (a + b) (c + d) (a + c) a x ≤ condLe (a + b) (c + d) (a + c) a y := by
      rcases eq_or_lt_of_le (not_lt.1 hcon) with h | h
      · rw [h]
      · exact (condLe_anti (by omega) (by omega) hy h).le
    have h4 := le_add_ge (a := a) (b := b) (c := c) (d := d) hx
    have hn : a + c ≤ (a + b) + (c + d) := by omega
    have h5 : 0 < condProb (a + b) (c + d) (a + c) x a := by
      rw [← F_eq hx hn (by omega)]
      exact div_pos (fishers_noncentral_hypergeometric.u_pos hx hn
        (by unfold fishers_noncentral_hypergeometric.lo; omega)
        (by unfold fishers_noncentral_hypergeometric.hi; omega)) (fishers_noncentral_hypergeometric.Z_pos hx hn)
    linarith

theorem condLe_pos {x : ℝ} (hx : 0 < x) : 0 < condLe (a + b) (c + d) (a + c) a x := by
  have hn : a + c ≤ (a + b) + (c + d) := by omega
  refine sum_pos' (fun k hk => ?_) ⟨a, by simp, ?_⟩
  · rw [mem_Icc] at hk
    rw [← F_eq hx hn (by omega)]
    exact div_nonneg (fishers_noncentral_hypergeometric.u_nonneg hx) (fishers_noncentral_hypergeometric.Z_pos hx hn).le
  · rw [← F_eq hx hn (by omega)]
    exact div_pos (fishers_noncentral_hypergeometric.u_pos hx hn
      (by unfold fishers_noncentral_hypergeometric.lo; omega)
      (by unfold fishers_noncentral_hypergeometric.hi; omega)) (fishers_noncentral_hypergeometric.Z_pos hx hn)

theorem condGe_pos {x : ℝ} (hx : 0 < x) : 0 < condGe (a + b) (c + d) (a + c) a x := by
  have hn : a + c ≤ (a + b) + (c + d) := by omega
  refine sum_pos' (fun k hk => ?_) ⟨a, by simp, ?_⟩
  · rw [mem_Icc] at hk
    rw [← F_eq hx hn (by omega)]
    exact div_nonneg (fishers_noncentral_hypergeometric.u_nonneg hx) (fishers_noncentral_hypergeometric.Z_pos hx hn).le
  · rw [← F_eq hx hn (by omega)]
    exact div_pos (fishers_noncentral_hypergeometric.u_pos hx hn
      (by unfold fishers_noncentral_hypergeometric.lo; omega)
      (by unfold fishers_noncentral_hypergeometric.hi; omega)) (fishers_noncentral_hypergeometric.Z_pos hx hn)

/-- C39 is violated: with the accepted confidence level 1 the two-sided interval is never returned, the search for a
limit does not end, whatever the table (unless a row or column is zero). -/
theorem ci_one_diverges (hz : ¬ ZeroMargin a b c d) (o p : Num) :
    Result.ci fuel findroot ⟨T a b c d, "conditional", "two-sided", o, p⟩ (fin 1) = .error .diverges := by
  have e : (1 - fin 1 : Num) /. 2 = .ok (fin 0) := by
    have := fin_div (1 - 1) (y := 2) two_ne_zero
    rw [sub_self, zero_div] at this
    rw [one_def, fin_sub, sub_self]; exact this
  rw [ci_start hz zero_le_one le_rfl, conditionalOddsRatioCi, if_pos rfl, e, ok_bind]
  by_cases h : a = 0 ∨ d = 0
  · have h' : ¬ (b = 0 ∨ c = 0) := by unfold ZeroMargin at hz; omega
    have e1 : ciLower fuel findroot (T a b c d) (fin 0) = .ok 0 := by
      have : (a:ℝ) * d / (c * b) = 0 := by rcases h with h | h <;> simp [h]
      rw [ciLower, sample_eval hz, if_neg h', this]; simp
    rw [e1, ok_bind, upper_solve hz h', solve_neg_diverges (fun y hy => upper_fun hy)]
    · rfl
    · intro y hy
      have := condLe_pos (a := a) (b := b) (c := c) (d := d) hy
      linarith
  · rw [lower_solve hz h, solve_pos_diverges (fun y hy => lower_fun hy)]
    · rfl
    · intro y hy
      have := condGe_pos (a := a) (b := b) (c := c) (d := d) hy
      linarith

/-- C39 is violated: likewise the one-sided interval with confidence level 0, if `b` and `c` are positive. -/
theorem ci_zero_diverges (hz : ¬ ZeroMargin a b c d) (hb : 0 < b) (hc : 0 < c) (o p : Num) :
    Result.ci fuel findroot ⟨T a b c d, "conditional", "less", o, p⟩ (fin 0) = .error .diverges := by
  have h' : ¬ (b = 0 ∨ c = 0) := by omega
  have e : (1 - fin 0 : Num) = fin 1 := by simp [one_def]
  rw [ci_start hz le_rfl zero_le_one, conditionalOddsRatioCi, if_neg (by decide), if_pos rfl, e,
    upper_solve hz h', solve_pos_diverges (fun y hy => upper_fun hy)]
  · rfl
  · intro y hy
    have h1 := condLe_anti (a := a) (d := d) hb hc (x := y / 2) (y := y) (by linarith) (by linarith)
    have hn : a + c ≤ (a + b) + (c + d) := by omega
    have h2 : condLe (a + b) (c + d) (a + c) a (y / 2) ≤ 1 := by
      have hy2 : 0 < y / 2 := by linarith
      have h3 := G_one (K := a + b) (R := c + d) hy2 hn
      rw [← G_le hy2 hn (by omega)]
      refine le_trans ?_ h3.le
      rw [G, G]
      refine sum_le_sum fun k _ => mul_le_mul_of_nonneg_right ?_ (div_nonneg
        (fishers_noncentral_hypergeometric.u_nonneg hy2) (fishers_noncentral_hypergeometric.Z_pos hy2 hn).le)
      split_ifs <;> norm_num
    linarith

end Mpsci.oddsRatio
