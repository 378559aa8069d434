import Verif.Model.Fit.LocScale
import Verif.Lemmas.Fit.Basic
import Verif.Lemmas.Dist.Gumbel
import Verif.Spec.RootFinder
import Mathlib.Topology.Algebra.Monoid
import Mathlib.Data.Sign.Basic

/-! Likelihood of the Gumbel distributions. -/

namespace Mpsci

open Classical Num Spec common

theorem std_fin {xs : List ℝ} (hn : xs ≠ []) : stats.std (xs.map fin) = .ok (fin (Real.sqrt (sampleVar xs))) := by
  have h0 := (length_pos hn).ne'
  have e : (List.map (fun t => (t - fin (sampleMean xs)) * (t - fin (sampleMean xs))) (xs.map fin)) =
      (xs.map fun x => (x - sampleMean xs) ^ 2).map fin := by
    simp only [List.map_map]
    refine List.map_congr_left fun x _ => ?_
    simp [pow_two]
  simp only [stats.std, stats.var, stats.len, mp.fsum_fin, List.length_map, fin_div _ h0, ok_bind]
  rw [show xs.sum / (xs.length : ℝ) = sampleMean xs from rfl, e]
  simp only [mp.fsum_fin, zero_def, fin_sub, sub_zero, fin_div _ h0, ok_bind]
  exact mp.sqrt_nonneg (sampleVar_nonneg xs)

theorem mapM_comp_fin {f : Num → M Num} {g : ℝ → ℝ} {xs : List ℝ} (h : ∀ x ∈ xs, f (fin x) = .ok (fin (g x))) :
    (xs.map fin).mapM f = .ok ((xs.map g).map fin) := mapM_logpdf h

theorem zipWith_self (xs : List ℝ) (g : ℝ → ℝ) :
    List.zipWith (fun t e : Num => t * e) (xs.map fin) ((xs.map g).map fin) = (xs.map fun x => x * g x).map fin := by
  induction xs with
  | nil => rfl
  | cons a t ih => simp only [List.map_cons, List.zipWith_cons_cons, ih, fin_mul]

namespace gumbel_max

variable {xs : List ℝ} {loc s : ℝ}

noncomputable def phi (z : ℝ) : ℝ := z + Real.exp (-z)
noncomputable def phi' (z : ℝ) : ℝ := 1 - Real.exp (-z)

theorem phi_tangent (z z' : ℝ) : phi z + phi' z * (z' - z) ≤ phi z' :=
  tangent_le (φ := phi) (φ' := phi') (fun z => ((hasDerivAt_id z).add ((hasDerivAt_id z).neg.exp)).congr_deriv (by simp [phi']; ring))
    (fun a b h => by unfold phi'; have := Real.exp_le_exp.2 (neg_le_neg h); linarith) z z'

theorem log_f (hs : 0 < s) (z : ℝ) : Real.log (f z / s) = -(Real.log s + phi z) := by
  rw [Real.log_div (by unfold f; positivity) hs.ne', f, Real.log_exp, phi]; ring

theorem nll_eval (hs : 0 < s) (xs : List ℝ) : nll (xs.map fin) (fin loc) (fin s) =
    .ok (fin ((xs.map fun x => Real.log s + phi ((x - loc) / s)).sum)) := by
  have e1 : (xs.map fin).mapM (fun t => (t - fin loc) /. fin s) = .ok ((xs.map fun x => (x - loc) / s).map fin) :=
    mapM_comp_fin fun x _ => by rw [fin_sub, fin_div _ hs.ne']
  have e2 : ((xs.map fun x => (x - loc) / s).map fin).map (fun t => mp.exp (-t)) =
      (xs.map fun x => Real.exp (-((x - loc) / s))).map fin := by
    simp only [List.map_map]; exact List.map_congr_left fun x _ => by simp
  simp only [nll, validateLocScale_ok _ hs, ok_bind, e1, e2, stats.len, List.length_map, mp.log_pos hs, mp.fsum_fin,
    fin_mul, fin_add, pure_eq_ok]
  congr 2
  simp only [phi, List.sum_map_add]
  simp; ring

/-- `mleScaleFunc` -/
noncomputable def G (xs : List ℝ) (s : ℝ) : ℝ := (xs.map fun x => (sampleMean xs - s - x) * Real.exp (-x / s)).sum

theorem func_eval (hs : s ≠ 0) : mleScaleFunc (fin s) (xs.map fin) (fin (sampleMean xs)) = .ok (fin (G xs s)) := by
  have e1 : (xs.map fin).mapM (fun t => do return mp.exp (← -t /. fin s)) =
      .ok ((xs.map fun x => Real.exp (-x / s)).map fin) :=
    mapM_comp_fin fun x _ => by rw [neg_fin, fin_div _ hs]; rfl
  simp only [pure_eq_ok] at e1
  simp only [mleScaleFunc, e1, ok_bind, zipWith_self, mp.fsum_fin, fin_sub, fin_mul, pure_eq_ok]
  congr 2
  rw [G, mul_comm, ← List.sum_map_mul_left, sub_eq_iff_eq_add, ← List.sum_map_add]
  congr 1
  exact List.map_congr_left fun x _ => by ring

theorem G_cont : ContinuousOn (G xs) (Set.Ioi 0) := by
  unfold G
  refine continuousOn_list_sum (f := fun x s => (sampleMean xs - s - x) * Real.exp (-x / s)) xs fun x _ s hs => ?_
  have h : s ≠ 0 := (Set.mem_Ioi.1 hs).ne'
  have : ContinuousAt (fun s => (sampleMean xs - s - x) * Real.exp (-x / s)) s := by fun_prop (disch := exact h)
  exact this.continuousWithinAt

theorem min_lt_mean {m : ℝ} (hm : ∀ x ∈ xs, m ≤ x) (hv : ¬ ∃ c, ∀ x ∈ xs, x = c) : m < sampleMean xs := by
  have hn : xs ≠ [] := by rintro rfl; exact hv ⟨0, by simp⟩
  have h1 : 0 < sampleMean (xs.map fun x => x - m) := by
    refine sampleMean_pos (fun x hx => sub_nonneg.2 (hm x hx)) ?_
    by_contra h
    push Not at h
    exact hv ⟨m, fun x hx => le_antisymm (sub_nonpos.1 (h x hx)) (hm x hx)⟩
  have h2 := sampleMean_affine hn (fun x => x) (-m) 1
  rw [List.map_id', List.map_congr_left (g := fun x => x - m) fun x _ => by ring] at h2
  linarith

/-- `mleScaleFunc` is positive for small and negative for large scales. -/
theorem G_signs (hv : ¬ ∃ c, ∀ x ∈ xs, x = c) :
    ∃ A B : ℝ, 0 < A ∧ (∀ s, 0 < s → s ≤ A → 0 < G xs s) ∧ ∀ s, B ≤ s → G xs s < 0 := by
  have hn : xs ≠ [] := by rintro rfl; exact hv ⟨0, by simp⟩
  obtain ⟨m, hmem, hm, -⟩ := py.min_fin hn
  have hD := min_lt_mean hm hv
  set D := sampleMean xs - m with hDdef
  have hD0 : 0 < D := by linarith
  have hl := length_pos hn
  refine ⟨D / (xs.length + 2), D + 1, by positivity, fun s hs hsA => ?_, fun s hsB => ?_⟩
  · have hsA' : s * (xs.length + 2) ≤ D := (le_div_iff₀ (by positivity)).1 hsA
    have e : G xs s = Real.exp (-m / s) * (xs.map fun x => (D - s - (x - m)) * Real.exp (-(x - m) / s)).sum := by
      rw [G, ← List.sum_map_mul_left]
      congr 1
      refine List.map_congr_left fun x _ => ?_
      rw [mul_left_comm, ← Real.exp_add]
      congr 1
      · rw [hDdef]; ring
      · congr 1; ring
    rw [e]
    refine mul_pos (Real.exp_pos _) ?_
    have hsD : s ≤ D := by nlinarith
    have hterm : ∀ x ∈ xs, -s ≤ (D - s - (x - m)) * Real.exp (-(x - m) / s) := fun x hx => by
      have h1 : 0 ≤ x - m := sub_nonneg.2 (hm x hx)
      have h2 : (x - m) * Real.exp (-(x - m) / s) ≤ s := by
        have h3 := Real.add_one_le_exp ((x - m) / s)
        rw [neg_div, Real.exp_neg, ← div_eq_mul_inv, div_le_iff₀ (Real.exp_pos _)]
        have h4 : x - m = s * ((x - m) / s) := by field_simp
        nlinarith
      have h5 : 0 ≤ (D - s) * Real.exp (-(x - m) / s) := mul_nonneg (by linarith) (Real.exp_pos _).le
      nlinarith
    obtain ⟨l1, l2, rfl⟩ := List.append_of_mem hmem
    have hb : ∀ l : List ℝ, (∀ x ∈ l, x ∈ l1 ++ m :: l2) →
        -(l.length * s) ≤ (l.map fun x => (D - s - (x - m)) * Real.exp (-(x - m) / s)).sum := fun l hl => by
      have := List.sum_le_sum (l := l) (f := fun _ => -s) fun x hx => hterm x (hl x hx)
      simpa using this
    have b1 := hb l1 (by simp +contextual)
    have b2 := hb l2 (by simp +contextual)
    rw [List.map_append, List.map_cons, List.sum_append, List.sum_cons]
    simp only [List.length_append, List.length_cons] at hsA'
    push_cast at hsA'
    simp only [sub_self, sub_zero, neg_zero, zero_div, Real.exp_zero, mul_one]
    nlinarith
  · obtain ⟨a, t, rfl⟩ := List.exists_cons_of_ne_nil hn
    have hneg : ∀ x ∈ a :: t, (sampleMean (a :: t) - s - x) * Real.exp (-x / s) < 0 := fun x hx => by
      refine mul_neg_of_neg_of_pos ?_ (Real.exp_pos _)
      have := hm x hx
      linarith
    rw [G, List.map_cons, List.sum_cons]
    have h1 := hneg a (by simp)
    have h2 : (t.map fun x => (sampleMean (a :: t) - s - x) * Real.exp (-x / s)).sum ≤ 0 := by
      have := List.sum_le_sum (l := t) (g := fun _ => (0:ℝ)) fun x hx => (hneg x (List.mem_cons_of_mem _ hx)).le
      simpa using this
    linarith

theorem sign_fin (a : ℝ) : mp.sign (fin a) = fin (SignType.sign a : ℝ) := by
  rcases lt_trichotomy a 0 with ha | rfl | ha
  · simp [mp.sign, ha, ha.not_gt]
  · simp [mp.sign]
  · simp [mp.sign, ha]

theorem sign_mul_le (a b : ℝ) : mp.sign (fin a) * mp.sign (fin b) ≤ 0 ↔ a * b ≤ 0 := by
  rw [sign_fin, sign_fin, fin_mul, zero_def, fin_le]
  rcases lt_trichotomy a 0 with ha | rfl | ha
  · rcases lt_trichotomy b 0 with hb | rfl | hb
    · simp [ha, hb, (mul_pos_of_neg_of_neg ha hb).not_ge, zero_lt_one.not_ge]
    · simp
    · simp [ha, hb, (mul_neg_of_neg_of_pos ha hb).le]
  · simp
  · rcases lt_trichotomy b 0 with hb | rfl | hb
    · simp [ha, hb, (mul_neg_of_pos_of_neg ha hb).le]
    · simp
    · simp [ha, hb, (mul_pos ha hb).not_ge, zero_lt_one.not_ge]

theorem sign_eq_zero (a : ℝ) : (mp.sign (fin a) =. 0) ↔ a = 0 := by
  rw [sign_fin, zero_def, fin_eq]
  rcases lt_trichotomy a 0 with ha | rfl | ha
  · simp [ha, ha.ne]
  · simp
  · simp [ha, ha.ne']

/-- The bracketing loop and the root finder find a zero of a function that is positive on one side and negative on the
other. `e` is 1 or -1. -/
theorem solveFrom_finds {findroot : (Num → M Num) → Num → Num → M Num} (hf : RootFinder findroot) {func : Num → M Num}
    {F : ℝ → ℝ} {e A B : ℝ} (hF : ∀ s, 0 < s → func (fin s) = .ok (fin (F s))) (hc : ContinuousOn F (Set.Ioi 0))
    (hA : 0 < A) (h1 : ∀ s, 0 < s → s ≤ A → 0 < e * F s) (h2 : ∀ s, B ≤ s → e * F s < 0) {s0 : ℝ} (hs0 : 0 < s0) :
    ∃ N, ∃ r : ℝ, 0 < r ∧ F r = 0 ∧ ∀ n ≥ N, solveFrom findroot n func (fin s0) = .ok (fin r) := by
  obtain ⟨K1, hK1⟩ := exists_pow_lt_of_lt_one (show (0:ℝ) < A / s0 by positivity) (show (9 / 10 : ℝ) < 1 by norm_num)
  obtain ⟨K2, hK2⟩ := pow_unbounded_of_one_lt (B / s0) (show (1:ℝ) < 11 / 10 by norm_num)
  set K := max K1 K2 + 1 with hK
  have hlow : ∀ k, K ≤ k → 0 < e * F ((9 / 10) ^ k * s0) := fun k hk => by
    refine h1 _ (by positivity) ?_
    have := pow_le_pow_of_le_one (show (0:ℝ) ≤ 9 / 10 by norm_num) (by norm_num) (show K1 ≤ k by omega)
    rw [← le_div_iff₀ hs0]; linarith
  have hhigh : ∀ k, K ≤ k → e * F ((11 / 10) ^ k * s0) < 0 := fun k hk => by
    refine h2 _ ?_
    have := pow_le_pow_right₀ (show (1:ℝ) ≤ 11 / 10 by norm_num) (show K2 ≤ k by omega)
    rw [← div_le_iff₀ hs0]; linarith
  let I : ℕ → Num × Num × Num × Num × Bool → Prop := fun k st =>
    (st.2.2.2.2 = false ∧ st.1 = fin ((9 / 10) ^ k * s0) ∧ st.2.2.1 = fin ((11 / 10) ^ k * s0) ∧
      st.2.2.2.1 = mp.sign (fin (F ((11 / 10) ^ k * s0))) ∧
      (0 < k → 0 < F ((9 / 10) ^ k * s0) * F ((11 / 10) ^ k * s0))) ∨
    (st.2.2.2.2 = true ∧ ∃ a b : ℝ, 0 < a ∧ a < b ∧ st = (fin a, mp.sign (fin (F a)), fin b, mp.sign (fin (F b)), true) ∧
      F a * F b ≤ 0)
  have hlt : ∀ j k : ℕ, 0 < j → (9 / 10 : ℝ) ^ j * s0 < (11 / 10) ^ k * s0 := fun j k hj => by
    have a1 : (9 / 10 : ℝ) ^ j < 1 := pow_lt_one₀ (by norm_num) (by norm_num) (by omega)
    have a2 : (1:ℝ) ≤ (11 / 10) ^ k := one_le_pow₀ (by norm_num)
    exact mul_lt_mul_of_pos_right (by linarith) hs0
  obtain ⟨k, N, t, hI, hC, hN⟩ := loop_ends_idx (cond := fun st : Num × Num × Num × Num × Bool => pure (¬ st.2.2.2.2 = true))
    (step := bracketStep func) I (fun st => ¬ st.2.2.2.2 = true) K
    (fun k s _ => rfl)
    (by
      rintro k ⟨s1, sg1, s2, sg2, b⟩ hI hC
      rcases hI with ⟨hb, e1, e2, e3, -⟩ | ⟨hb, -⟩
      swap; · exact absurd hb hC
      simp only at hb e1 e2 e3
      subst e1 e2 e3 hb
      have p1 : (0:ℝ) < (9 / 10) * ((9 / 10) ^ k * s0) := by positivity
      have p2 : (0:ℝ) < (11 / 10) * ((11 / 10) ^ k * s0) := by positivity
      have q1 : (9 / 10) * ((9 / 10) ^ k * s0) = (9 / 10) ^ (k + 1) * s0 := by ring
      have q2 : (11 / 10) * ((11 / 10) ^ k * s0) = (11 / 10) ^ (k + 1) * s0 := by ring
      have hf1 := hF _ p1
      have hf2 := hF _ p2
      rw [q1] at hf1
      rw [q2] at hf2
      by_cases c1 : F ((9 / 10) ^ (k + 1) * s0) * F ((11 / 10) ^ k * s0) ≤ 0
      · refine ⟨_, by simp only [bracketStep, fin_mul, q1, hf1, ok_bind, sign_mul_le, c1, if_true, pure_eq_ok], Or.inr ⟨rfl, _, _, ?_, ?_, rfl, c1⟩⟩
        · rw [← q1]; exact p1
        · exact hlt _ _ (by omega)
      · by_cases c2 : F ((9 / 10) ^ (k + 1) * s0) * F ((11 / 10) ^ (k + 1) * s0) ≤ 0
        · refine ⟨_, by simp only [bracketStep, fin_mul, q1, hf1, q2, hf2, ok_bind, sign_mul_le, c1, c2, if_true, if_false, pure_eq_ok], Or.inr ⟨rfl, _, _, ?_, ?_, rfl, c2⟩⟩
          · rw [← q1]; exact p1
          · exact hlt _ _ (by omega)
        · exact ⟨(fin ((9 / 10) ^ (k + 1) * s0), mp.sign (fin (F ((9 / 10) ^ (k + 1) * s0))), fin ((11 / 10) ^ (k + 1) * s0),
            mp.sign (fin (F ((11 / 10) ^ (k + 1) * s0))), false), by simp only [bracketStep, fin_mul, q1, hf1, q2, hf2, ok_bind, sign_mul_le, c1, c2, if_false, pure_eq_ok], Or.inl ⟨rfl, rfl, rfl, rfl, fun _ => not_le.1 c2⟩⟩)
    (by
      rintro k st hk (⟨_, -, -, -, h⟩ | ⟨hb, -⟩) hC
      · have h3 := h (by omega)
        have h4 := mul_neg_of_pos_of_neg (hlow k hk) (hhigh k hk)
        nlinarith [mul_nonneg (sq_nonneg e) h3.le]
      · exact hC hb)
    (s := (fin s0, 0, fin s0, mp.sign (fin (F s0)), false))
    (Or.inl ⟨rfl, by simp, by simp, by simp, fun h => absurd h (by simp)⟩)
  rw [not_not] at hC
  rcases hI with ⟨hb, -⟩ | ⟨-, a, b, ha, hab, rfl, hp⟩
  · rw [hb] at hC; exact absurd hC (by simp)
  have key : ∀ n ≥ N, solveFrom findroot n func (fin s0) = if F a = 0 then .ok (fin a) else if F b = 0 then .ok (fin b)
      else findroot func (fin a) (fin b) := fun n hn => by
    have hN' := hN n hn
    simp only [pure_eq_ok] at hN'
    simp only [solveFrom, hF s0 hs0, ok_bind, pure_eq_ok, hN', sign_eq_zero]
  by_cases z1 : F a = 0
  · exact ⟨N, a, ha, z1, fun n hn => by rw [key n hn, if_pos z1]⟩
  by_cases z2 : F b = 0
  · exact ⟨N, b, ha.trans hab, z2, fun n hn => by rw [key n hn, if_neg z1, if_pos z2]⟩
  obtain ⟨r, hr, h3, h4⟩ := hf func F a b hab (fun x hx => hF x (ha.trans_le hx.1))
    (hc.mono fun x hx => ha.trans_le hx.1) (by
      rcases mul_nonpos_iff.1 hp with h | h
      · exact Or.inr h
      · exact Or.inl h)
  exact ⟨N, r, ha.trans_le hr.1, h4, fun n hn => by rw [key n hn, if_neg z1, if_neg z2, h3]⟩

/-- With the location of the code, the first likelihood equation holds. -/
theorem sum_phi'_loc (hn : xs ≠ []) (hs : 0 < s) :
    (xs.map fun x => phi' ((x - -s * Real.log (sampleMean (xs.map fun x => Real.exp (-x / s)))) / s)).sum = 0 := by
  set A := sampleMean (xs.map fun x => Real.exp (-x / s)) with hA
  have hA0 : 0 < A := sampleMean_pos (fun x _ => (Real.exp_pos _).le)
    (by obtain ⟨a, t, rfl⟩ := List.exists_cons_of_ne_nil hn; exact ⟨a, by simp, Real.exp_pos _⟩)
  have e : ∀ x : ℝ, phi' ((x - -s * Real.log A) / s) = 1 + (-1 / A) * Real.exp (-x / s) := fun x => by
    have : -((x - -s * Real.log A) / s) = -x / s - Real.log A := by field_simp; ring
    rw [phi', this, Real.exp_sub, Real.exp_log hA0]; ring
  simp only [e]
  rw [sum_map_affine, sum_eq_mean hn, ← hA]
  field_simp; ring

/-- With the location of the code, the second likelihood equation is `mleScaleFunc = 0`. -/
theorem sum_phi'_scale (hn : xs ≠ []) (hs : 0 < s) (h : G xs s = 0) :
    (xs.map fun x => phi' ((x - -s * Real.log (sampleMean (xs.map fun x => Real.exp (-x / s)))) / s) *
      ((x - -s * Real.log (sampleMean (xs.map fun x => Real.exp (-x / s)))) / s)).sum = xs.length := by
  have h1 := sum_phi'_loc hn hs
  set A := sampleMean (xs.map fun x => Real.exp (-x / s)) with hA
  have hA0 : 0 < A := sampleMean_pos (fun x _ => (Real.exp_pos _).le)
    (by obtain ⟨a, t, rfl⟩ := List.exists_cons_of_ne_nil hn; exact ⟨a, by simp, Real.exp_pos _⟩)
  have e : ∀ x : ℝ, phi' ((x - -s * Real.log A) / s) = 1 + (-1 / A) * Real.exp (-x / s) := fun x => by
    have : -((x - -s * Real.log A) / s) = -x / s - Real.log A := by field_simp; ring
    rw [phi', this, Real.exp_sub, Real.exp_log hA0]; ring
  have e2 : ∀ x : ℝ, phi' ((x - -s * Real.log A) / s) * ((x - -s * Real.log A) / s) =
      Real.log A * phi' ((x - -s * Real.log A) / s) + (1 / s * x + (1 / (A * s)) * ((sampleMean xs - s - x) * Real.exp (-x / s))
        + (-(sampleMean xs - s) / (A * s)) * Real.exp (-x / s)) := fun x => by
    rw [e]; field_simp; ring
  simp only [e2]
  rw [List.sum_map_add, List.sum_map_add, List.sum_map_add, List.sum_map_mul_left, h1, List.sum_map_mul_left,
    List.sum_map_mul_left, List.sum_map_mul_left, sum_eq_mean hn (fun x => x), sum_eq_mean hn (fun x => Real.exp (-x / s)),
    ← hA, show (xs.map fun x => (sampleMean xs - s - x) * Real.exp (-x / s)).sum = 0 from h]
  rw [List.map_id']
  field_simp; ring

theorem exps_eval (hs : s ≠ 0) : (xs.map fin).mapM (fun t => do return mp.exp (← -t /. fin s)) =
    .ok ((xs.map fun x => Real.exp (-x / s)).map fin) :=
  mapM_comp_fin fun x _ => by rw [neg_fin, fin_div _ hs]; rfl

theorem meanExp_pos (hn : xs ≠ []) (c : ℝ) : 0 < sampleMean (xs.map fun x => Real.exp (c * x)) :=
  sampleMean_pos (fun x _ => (Real.exp_pos _).le)
    (by obtain ⟨a, t, rfl⟩ := List.exists_cons_of_ne_nil hn; exact ⟨a, by simp, Real.exp_pos _⟩)

theorem locFor_eval (hn : xs ≠ []) (hs : 0 < s) :
    (do let ex ← (xs.map fin).mapM (fun t => do return mp.exp (← -t /. fin s))
        return (-fin s * (← mp.log (← stats.mean ex)), fin s)) =
    (Except.ok (fin (-s * Real.log (sampleMean (xs.map fun x => Real.exp (-x / s)))), fin s) : M (Num × Num)) := by
  have h := meanExp_pos hn (-1 / s)
  have e : (xs.map fun x => Real.exp (-1 / s * x)) = xs.map fun x => Real.exp (-x / s) :=
    List.map_congr_left fun x _ => by congr 1; ring
  rw [e] at h
  rw [exps_eval hs.ne', ok_bind, mean_fin (by simpa using hn), ok_bind, mp.log_pos h, ok_bind]
  simp

/-- The equation for the scale with given location. -/
theorem fixedLoc_eval (hn : xs ≠ []) (hs : s ≠ 0) : mleScaleWithFixedLoc (fin s) (xs.map fin) (fin loc) =
    .ok (fin (sampleMean (xs.map fun x => (Real.exp (-((x - loc) / s)) - 1) * ((x - loc) / s)) + 1)) := by
  have e1 : (xs.map fin).mapM (fun t => (t - fin loc) /. fin s) = .ok ((xs.map fun x => (x - loc) / s).map fin) :=
    mapM_comp_fin fun x _ => by rw [fin_sub, fin_div _ hs]
  have e2 : ((xs.map fun x => (x - loc) / s).map fin).map (fun t => mp.expm1 (-t) * t) =
      (xs.map fun x => (Real.exp (-((x - loc) / s)) - 1) * ((x - loc) / s)).map fin := by
    simp only [List.map_map]; exact List.map_congr_left fun x _ => by simp
  simp only [mleScaleWithFixedLoc, e1, ok_bind, e2, mean_fin (show (xs.map fun x => (Real.exp (-((x - loc) / s)) - 1) *
    ((x - loc) / s)) ≠ [] by simpa using hn), one_def, fin_add, pure_eq_ok]

end gumbel_max

namespace gumbel_min

variable {xs : List ℝ} {loc s : ℝ}

theorem nll_mirror (hs : 0 < s) (xs : List ℝ) : nll (xs.map fin) (fin loc) (fin s) =
    gumbel_max.nll ((xs.map (- ·)).map fin) (fin (-loc)) (fin s) := by
  have e1 : (xs.map fin).mapM (fun t => (t - fin loc) /. fin s) = .ok ((xs.map fun x => (x - loc) / s).map fin) :=
    mapM_comp_fin fun x _ => by rw [fin_sub, fin_div _ hs.ne']
  have e2 : ((xs.map fun x => (x - loc) / s).map fin).map (fun t => mp.exp t) =
      (xs.map fun x => Real.exp (((x - loc) / s))).map fin := by
    simp only [List.map_map]; exact List.map_congr_left fun x _ => by simp
  rw [gumbel_max.nll_eval hs]
  simp only [nll, validateLocScale_ok _ hs, ok_bind, e1, e2, stats.len, List.length_map, mp.log_pos hs, mp.fsum_fin,
    fin_mul, fin_add, pure_eq_ok, neg_fin]
  congr 2
  rw [List.map_map]
  have e3 : ∀ x : ℝ, ((fun x => Real.log s + gumbel_max.phi ((x - -loc) / s)) ∘ fun x => -x) x =
    Real.log s + (-1 * ((x - loc) / s) + Real.exp ((x - loc) / s)) := fun x => by
    have : (-x - -loc) / s = -((x - loc) / s) := by ring
    simp only [Function.comp, gumbel_max.phi, this, neg_neg]; ring
  rw [List.map_congr_left fun x _ => e3 x, List.sum_map_add, List.sum_map_add, List.sum_map_mul_left]
  simp; ring

theorem sampleMean_neg (xs : List ℝ) : sampleMean (xs.map (- ·)) = -sampleMean xs := by
  have := sampleMean_mul xs (fun x => x) (-1)
  rw [List.map_id'] at this
  rw [List.map_congr_left (g := fun x => -1 * x) fun x _ => by ring, this]; ring

theorem func_eval (hs : s ≠ 0) : mleScaleFunc (fin s) (xs.map fin) (fin (sampleMean xs)) =
    .ok (fin (-gumbel_max.G (xs.map (- ·)) s)) := by
  have e1 : (xs.map fin).mapM (fun t => do return mp.exp (← t /. fin s)) =
      .ok ((xs.map fun x => Real.exp (x / s)).map fin) :=
    mapM_comp_fin fun x _ => by rw [fin_div _ hs]; rfl
  simp only [pure_eq_ok] at e1
  simp only [mleScaleFunc, e1, ok_bind, zipWith_self, mp.fsum_fin, fin_sub, fin_add, fin_mul, pure_eq_ok]
  congr 2
  rw [gumbel_max.G, sampleMean_neg, List.map_map, mul_comm, ← List.sum_map_mul_left, sub_eq_iff_eq_add, neg_add_eq_sub,
    eq_sub_iff_add_eq, ← List.sum_map_add]
  congr 1
  exact List.map_congr_left fun x _ => by simp; ring

theorem exps_eval (hs : s ≠ 0) : (xs.map fin).mapM (fun t => do return mp.exp (← t /. fin s)) =
    .ok ((xs.map fun x => Real.exp (x / s)).map fin) :=
  mapM_comp_fin fun x _ => by rw [fin_div _ hs]; rfl

theorem locFor_eval (hn : xs ≠ []) (hs : 0 < s) :
    (do let ex ← (xs.map fin).mapM (fun t => do return mp.exp (← t /. fin s))
        return (fin s * (← mp.log (← stats.mean ex)), fin s)) =
    (Except.ok (fin (s * Real.log (sampleMean ((xs.map (- ·)).map fun x => Real.exp (-x / s)))), fin s) : M (Num × Num)) := by
  have h := gumbel_max.meanExp_pos hn (1 / s)
  have e : (xs.map fun x => Real.exp (1 / s * x)) = xs.map fun x => Real.exp (x / s) :=
    List.map_congr_left fun x _ => by congr 1; ring
  rw [e] at h
  have e' : ((xs.map (- ·)).map fun x => Real.exp (-x / s)) = xs.map fun x => Real.exp (x / s) := by
    rw [List.map_map]; exact List.map_congr_left fun x _ => by simp
  rw [exps_eval hs.ne', ok_bind, mean_fin (by simpa using hn), ok_bind, mp.log_pos h, ok_bind, e']
  simp

theorem fixedLoc_eval (hn : xs ≠ []) (hs : s ≠ 0) : mleScaleWithFixedLoc (fin s) (xs.map fin) (fin loc) =
    .ok (fin (sampleMean ((xs.map (- ·)).map fun x => (Real.exp (-((x - -loc) / s)) - 1) * ((x - -loc) / s)) + 1)) := by
  have e1 : (xs.map fin).mapM (fun t => (t - fin loc) /. fin s) = .ok ((xs.map fun x => (x - loc) / s).map fin) :=
    mapM_comp_fin fun x _ => by rw [fin_sub, fin_div _ hs]
  have e2 : ((xs.map fun x => (x - loc) / s).map fin).map (fun t => mp.expm1 t * t) =
      (xs.map fun x => (Real.exp ((x - loc) / s) - 1) * ((x - loc) / s)).map fin := by
    simp only [List.map_map]; exact List.map_congr_left fun x _ => by simp
  simp only [mleScaleWithFixedLoc, e1, ok_bind, e2, mean_fin (show (xs.map fun x => (Real.exp ((x - loc) / s) - 1) *
    ((x - loc) / s)) ≠ [] by simpa using hn), one_def, fin_sub, pure_eq_ok]
  congr 2
  have e3 : ((xs.map (- ·)).map fun x => (Real.exp (-((x - -loc) / s)) - 1) * ((x - -loc) / s)) =
      xs.map fun x => -1 * ((Real.exp ((x - loc) / s) - 1) * ((x - loc) / s)) := by
    rw [List.map_map]
    refine List.map_congr_left fun x _ => ?_
    have : (-x - -loc) / s = -((x - loc) / s) := by ring
    simp only [Function.comp, this, neg_neg]; ring
  rw [e3, sampleMean_mul]; ring

end gumbel_min

end Mpsci
