import Verif.Lemmas.Dist.Truncnorm

/-! Properties of `truncnorm`. The ends `A`, `B` are arbitrary extended real numbers with `A < B`. -/

namespace Mpsci.truncnorm

open Classical Num Spec common Filter Topology Set

variable {A B : Num}

/-- C01 -/
theorem complementary (h : A < B) : Complementary (cdf · A B) (sf · A B) := complementary_of (cdf_eval h) (sf_eval h)

/-- C02 -/
theorem isCdf (h : A < B) : IsCdf (cdf · A B) := (isDist h).isCdf (cdf_eval h)

/-- C03 -/
theorem isDensity (h : A < B) : IsDensity ∅ {x | A ≤ fin x ∧ fin x ≤ B} (pdf · A B) (cdf · A B) :=
  (isDist h).isDensity (fun x _ => pdf_eval h x) (cdf_eval h) fun _ => f_off

/-- C04 -/
theorem isLogOf (h : A < B) : IsLogOf ∅ (pdf · A B) (logpdf · A B) := by
  intro x _
  by_cases hx : x ∈ S A B
  · have h0 : f A B x ≠ 0 := by rw [f_on hx]; exact (div_pos (phi_pos x) (delta_pos h)).ne'
    exact ⟨_, f_nonneg h x, pdf_eval h x, by rw [if_neg h0]; exact logpdf_on h hx⟩
  · exact ⟨_, f_nonneg h x, pdf_eval h x, by rw [if_pos (f_off hx)]; exact logpdf_off h hx⟩

/-- C05 -/
theorem inverts_cdf (h : A < B) : Inverts {x | A < fin x ∧ fin x < B} (cdf · A B) (invcdf · A B) :=
  inverts_of (fun x _ => cdf_eval h x) (fun _ => invcdf_eval h) (fun _ => F_Q h) (fun _ => Q_F h)

/-- C05 -/
theorem inverts_sf (h : A < B) : Inverts {x | A < fin x ∧ fin x < B} (sf · A B) (invsf · A B) :=
  inverts_compl (fun x _ => sf_eval h x) (fun _ => invsf_eval h) (fun _ => F_Q h) (fun _ => Q_F h)

/-- C06 -/
theorem rejects_p : RejectsBadP (invcdf · A B) ∧ RejectsBadP (invsf · A B) := by
  constructor <;> intro p hp <;> simp [invcdf, invsf, validateP_bad hp]

/-- C07 -/
theorem validates (hA : A ≠ nan) (hB : B ≠ nan) (x : ℝ) :
    ValidatesExactly (A < B) (cdf (fin x) A B) ∧ ValidatesExactly (A < B) (sf (fin x) A B) ∧
    ValidatesExactly (A < B) (pdf (fin x) A B) ∧ ValidatesExactly (A < B) (logpdf (fin x) A B) := by
  have hb (h : ¬ A < B) : validate A B = .error .valueError := by
    cases A <;> cases B <;> simp_all [validate]
  have hl (h : A < B) : Returns (logpdf (fin x) A B) := by
    by_cases hx : x ∈ S A B
    exacts [⟨_, logpdf_on h hx⟩, ⟨_, logpdf_off h hx⟩]
  refine ⟨⟨fun h => ⟨_, cdf_eval h x⟩, fun h => ?_⟩, ⟨fun h => ⟨_, sf_eval h x⟩, fun h => ?_⟩,
    ⟨fun h => ⟨_, pdf_eval h x⟩, fun h => ?_⟩, ⟨fun h => hl h, fun h => ?_⟩⟩ <;>
  simp [cdf, sf, pdf, logpdf, hb h]

/-- C12: without truncation this is the standard normal distribution. -/
theorem untruncated (x : ℝ) : cdf (fin x) ninf pinf = normal.cdf (fin x) 0 1 ∧
    sf (fin x) ninf pinf = normal.sf (fin x) 0 1 ∧ pdf (fin x) ninf pinf = normal.pdf (fin x) 0 1 := by
  have h : ninf < pinf := trivial
  have hm : x ∈ P ninf pinf := by simp [P]
  have hS : x ∈ S ninf pinf := by simp [S]
  have h1 := normal.cdf_eval (loc := 0) one_pos x
  have h2 := normal.sf_eval (loc := 0) one_pos x
  have h3 := normal.pdf_eval (loc := 0) one_pos x
  rw [zero_def, one_def, h1, h2, h3, cdf_eval h, sf_eval h, pdf_eval h, (F_mid h hm).1, f_on hS]
  simp [delta, PE]

/-- C12: the distribution function is that of the standard normal distribution, conditioned on the interval. -/
theorem conditional {a b x : ℝ} (hab : a < b) (h1 : a ≤ x) (h2 : x ≤ b) :
    cdf (fin x) (fin a) (fin b) = .ok (fin ((Phi x - Phi a) / (Phi b - Phi a))) := by
  have h : fin a < fin b := by simpa using hab
  have h0 : 0 < Phi b - Phi a := sub_pos.2 (Phi_strictMono hab)
  rw [cdf_eval h]
  have h3 : 0 ≤ (Phi x - Phi a) / (Phi b - Phi a) := div_nonneg (sub_nonneg.2 (Phi_strictMono.monotone h1)) h0.le
  have h4 : (Phi x - Phi a) / (Phi b - Phi a) ≤ 1 := by
    rw [div_le_one h0]; have := Phi_strictMono.monotone h2; linarith
  simp only [F, delta, PE]
  rw [min_eq_right h4, max_eq_right h3]

/-- C09 -/
theorem isMode (h : A < B) : IsMode ∅ (pdf · A B) (mode A B) := by
  have key (m : ℝ) (hm : m ∈ S A B) (hle : ∀ y ∈ S A B, |m| ≤ |y|) (hr : mode A B = .ok (fin m)) :
      IsMode ∅ (pdf · A B) (mode A B) := by
    refine isMode_of (m := m) hr (fun x _ => pdf_eval h x) (by simp) fun y _ => ?_
    by_cases hy : y ∈ S A B
    · rw [f_on hy, f_on hm]
      refine div_le_div_of_nonneg_right ?_ (delta_pos h).le
      unfold phi
      have := sq_le_sq.2 (hle y hy)
      exact div_le_div_of_nonneg_right (Real.exp_le_exp.2 (by linarith)) sqrt_two_pi_pos.le
    · rw [f_off hy]; exact f_nonneg h m
  obtain ⟨rfl | ⟨a, rfl⟩, rfl | ⟨b, rfl⟩⟩ := ends h
  · exact key 0 (by simp [S]) (by simp) (by simp [mode, validate_ok h])
  · by_cases hb : b ≤ 0
    · exact key b (by simp [S]) (fun y hy => by
        have : y ≤ b := by simpa [S] using hy
        rw [abs_of_nonpos hb, abs_of_nonpos (by linarith)]; linarith) (by simp [mode, validate_ok h, hb])
    · exact key 0 (by simp [S]; linarith) (by simp) (by simp [mode, validate_ok h, hb])
  · by_cases ha : 0 ≤ a
    · exact key a (by simp [S]) (fun y hy => by
        have : a ≤ y := by simpa [S] using hy
        rw [abs_of_nonneg ha, abs_of_nonneg (by linarith)]; linarith) (by simp [mode, validate_ok h, ha])
    · exact key 0 (by simp [S]; linarith) (by simp) (by simp [mode, validate_ok h, ha])
  · have hab : a < b := by simpa using h
    by_cases ha : 0 ≤ a
    · exact key a (by simp [S, hab.le]) (fun y hy => by
        have : a ≤ y ∧ y ≤ b := by simpa [S] using hy
        rw [abs_of_nonneg ha, abs_of_nonneg (by linarith)]; linarith) (by simp [mode, validate_ok h, ha])
    · by_cases hb : b ≤ 0
      · exact key b (by simp [S, hab.le]) (fun y hy => by
          have : a ≤ y ∧ y ≤ b := by simpa [S] using hy
          rw [abs_of_nonpos hb, abs_of_nonpos (by linarith)]; linarith) (by simp [mode, validate_ok h, ha, hb])
      · exact key 0 (by simp [S]; constructor <;> linarith) (by simp) (by simp [mode, validate_ok h, ha, hb])

theorem normal_cdf_PE (hA : A ≠ nan) : normal.cdf A (fin 0) (fin 1) = .ok (fin (PE A)) := by
  cases A with
  | fin x => exact normal.std_cdf x
  | pinf => exact normal.atInfinities_std.2
  | ninf => exact normal.atInfinities_std.1
  | nan => exact absurd rfl hA

/-- C10 -/
theorem isMedian (h : A < B) : IsMedian (cdf · A B) (median A B) := by
  obtain ⟨h1, h2⟩ := F_Q h (p := 1 / 2) (by norm_num) (by norm_num)
  refine ⟨Q A B (1 / 2), ?_, (cdf_eval h _).trans (by rw [h2])⟩
  obtain ⟨a, b⟩ := q_mem h (p := 1 / 2) (by norm_num) (by norm_num)
  have e : (PE A + PE B) / 2 = 1 / 2 * delta A B + PE A := by simp only [delta]; ring
  simp only [median, validate_ok h, ok_bind, zero_def, one_def, normal_cdf_PE (ne_nan h).1, normal_cdf_PE (ne_nan h).2,
    fin_add, ofNat_def, fin_div _ (two_ne_zero (α := ℝ)), e,
    normal.std_invcdf ((PE_nonneg A).trans_lt a) (b.trans_le (PE_le_one B)), Q]

theorem hasMV (h : A < B) : HasMV (f A B) (mom A B 1) (mom A B 2 - mom A B 1 ^ 2) :=
  HasMV.of_int01 (isDist h) (fun _ h0 h1 => (F_Q h h0 h1).2) (by simpa using int01_mom h 1) (int01_mom h 2) (by ring)

/-- C37 -/
theorem isMean (h : A < B) : IsMean ∅ (pdf · A B) (mean A B) :=
  (hasMV h).isMean finite_empty (fun x _ => pdf_eval h x) (by
    simp only [mean, validate_ok h, ok_bind, pdf_A h, pdf_B h, fin_sub, pure_eq_ok, mom_one h])

/-- C37 -/
theorem isVar (h : A < B) : IsVar ∅ (pdf · A B) (var A B) :=
  (hasMV h).isVar finite_empty (fun x _ => pdf_eval h x) (by
    simp only [var, validate_ok h, ok_bind, pdf_A h, pdf_B h, term_if h, one_def, fin_add, fin_sub, fin_mul, pure_eq_ok,
      ← mom_one h, ← mom_two h, pow_two])

theorem F_aff (h : A < B) (p : ℝ) (h0 : 0 < p) (h1 : p < 1) : F A B (0 + 1 * Q A B p) = p := by
  rw [zero_add, one_mul]; exact (F_Q h h0 h1).2

/-- C37 -/
theorem isSkewness (h : A < B) : IsSkewness ∅ (pdf · A B) (skewness A B) := by
  refine isSkewness_of finite_empty (fun x _ => pdf_eval h x) (isDist h) (f_nonneg h) (F_aff h)
    (by simpa using int01_mom h 1) (int01_mom h 2) (int01_mom h 3) fun hv => ?_
  rw [one_pow, one_mul] at hv
  have hv' : 0 < mom A B 2 - mom A B 1 * mom A B 1 := by rwa [← pow_two]
  have hp : (mom A B 2 - mom A B 1 * mom A B 1) ^ (3 / 2 : ℝ) ≠ 0 := by positivity
  simp only [skewness, validate_ok h, ok_bind, noncentralMoments_eval h 3 (by norm_num), List.range_succ, List.range_zero,
    List.nil_append, List.cons_append, List.map_cons, List.map_nil, zero_add, ofNat_def, neg_fin, fin_mul, fin_add,
    fin_sub, mp.power_pos hv', fin_div _ hp]
  rw [pow_two, one_pow, one_mul, one_mul]
  norm_num [pow_succ]
  congr 1; ring

/-- C37 -/
theorem isKurtosis (h : A < B) : IsKurtosis ∅ (pdf · A B) (kurtosis A B) := by
  refine isKurtosis_of finite_empty (fun x _ => pdf_eval h x) (isDist h) (f_nonneg h) (F_aff h)
    (by simpa using int01_mom h 1) (int01_mom h 2) (int01_mom h 3) (int01_mom h 4) fun _ hv => ?_
  have hv' : 0 < mom A B 2 - mom A B 1 * mom A B 1 := by rwa [← pow_two]
  simp only [kurtosis, validate_ok h, ok_bind, noncentralMoments_eval h 4 (by norm_num), List.range_succ, List.range_zero,
    List.nil_append, List.cons_append, List.map_cons, List.map_nil, zero_add, ofNat_def, neg_fin, fin_mul, fin_add,
    fin_sub, fin_div _ (mul_pos hv' hv').ne', pure_eq_ok]
  norm_num [pow_two]
  congr 1; ring

/-- C37 -/
theorem isEntropy (h : A < B) : IsEntropy ∅ (pdf · A B) (entropy A B) := by
  have h0 := delta_pos h
  have h1 : 0 < 2 * Real.pi := by have := Real.pi_pos; positivity
  have hE : HasEnt (f A B) (Real.log (2 * Real.pi) / 2 + Real.log (delta A B) + 1 / 2 * mom A B 2) := by
    refine HasEnt.of_int01 (isDist h) (fun p h0 h1 => (F_Q h h0 h1).2) ?_
    refine ((Int01.const (Real.log (2 * Real.pi) / 2 + Real.log (delta A B))).add
      ((int01_mom h 2).mul (1 / 2))).congr fun p hp0 hp1 => ?_
    have hm := (F_Q h hp0 hp1).1
    have hS : Q A B p ∈ S A B := by
      rw [mem_S h]; revert hm
      obtain ⟨rfl | ⟨a, rfl⟩, rfl | ⟨b, rfl⟩⟩ := ends h <;> simp [P] <;> grind
    rw [f_on hS, Real.log_div (phi_pos _).ne' h0.ne', log_phi]; ring
  refine hE.isEntropy finite_empty (fun x _ => pdf_eval h x) ?_
  have hp (C : Num) (hC : C ≠ nan) : prodXNpdf C = .ok (fin (delta A B * bd 1 A B C)) := by
    have e : delta A B * bd 1 A B C = ev (fun x => x ^ 1 * phi x) C := by rw [bd]; field_simp
    rw [e]
    cases C with
    | fin x => simp [prodXNpdf, mp.npdf_std', ev]
    | pinf => simp [prodXNpdf, ev]
    | ninf => simp [prodXNpdf, ev]
    | nan => exact absurd rfl hC
  simp only [entropy, validate_ok h, ok_bind, normDelta_eval h, mp.pi_def, ofNat_def, fin_mul, mp.log_pos h1, one_def,
    fin_add, fin_sub, fin_div _ (two_ne_zero (α := ℝ)), mp.log_pos h0, hp _ (ne_nan h).1, hp _ (ne_nan h).2,
    fin_div _ (mul_pos two_pos h0).ne', pure_eq_ok, mom_two h]
  congr 2; field_simp; ring

/-- The list of noncentral moments used by `skewness` and `kurtosis` is right for every length. -/
theorem noncentralMoments_spec (h : A < B) (n : ℕ) (hn : 2 ≤ n) : ∃ ms : List ℝ, ms.length = n ∧
    noncentralMoments n A B = .ok (ms.map fin) ∧ ∀ (i : ℕ) (hi : i < ms.length),
      IsMoment ∅ (pdf · A B) (i + 1) (.ok (fin ms[i])) := by
  refine ⟨(List.range n).map fun i => mom A B (i + 1), by simp, by
    rw [noncentralMoments_eval h n hn, List.map_map]; rfl, fun i hi => ?_⟩
  exact isMoment_of_int01 finite_empty (fun x _ => pdf_eval h x) (isDist h) (fun p h0 h1 => (F_Q h h0 h1).2)
    (int01_mom h (i + 1)) (by simp)

theorem invcdf_PE (hA : A ≠ nan) : normal.invcdf (fin (PE A)) (fin 0) (fin 1) = .ok A := by
  cases A with
  | fin x => simpa [PE, PhiInv_Phi] using normal.std_invcdf (Phi_pos x) (Phi_lt_one x)
  | pinf => exact normal.endPoints_std.2
  | ninf => exact normal.endPoints_std.1
  | nan => exact absurd rfl hA

/-- C41 -/
theorem endPoints (h : A < B) : EndPoints (invcdf · A B) A B ∧ EndPoints (invsf · A B) B A := by
  have e1 : delta A B + PE A = PE B := by simp [delta]
  have e2 : -delta A B + PE B = PE A := by simp [delta]
  refine ⟨⟨?_, ?_⟩, ⟨?_, ?_⟩⟩ <;>
  simp only [invcdf, invsf, one_def, zero_def, validateP_ok le_rfl zero_le_one, validateP_ok zero_le_one le_rfl,
    validate_ok h, ok_bind, normDelta_eval h, ncdf_PE (ne_nan h).1, ncdf_PE (ne_nan h).2, fin_mul, fin_add, neg_fin,
    zero_mul, neg_zero, zero_add, one_mul, neg_one_mul, neg_mul, e1, e2, invcdf_PE (ne_nan h).1, invcdf_PE (ne_nan h).2]

/-- C48 -/
theorem atInfinities (h : A < B) : AtInfinities (cdf · A B) (sf · A B) := by
  have h1 : normDelta A B = fin (delta A B) := normDelta_eval h
  obtain ⟨rfl | ⟨a, rfl⟩, rfl | ⟨b, rfl⟩⟩ := ends h <;> refine ⟨?_, ?_, ?_, ?_⟩ <;>
  simp [cdf, sf, validate_ok h]

/-- C38 -/
theorem support_eq (h : A < B) : support A B = .ok (A, B) := by simp [support, validate_ok h]

/-- Non-vacuity: the half-line `[0, ∞)`, and an interval. -/
example : fin 0 < pinf ∧ fin (-1) < fin 2 ∧ cdf (fin 0) ninf pinf = .ok (fin (1 / 2)) := by
  refine ⟨trivial, by norm_num, ?_⟩
  rw [(untruncated 0).1, ← Phi_zero]; exact normal.std_cdf 0

end Mpsci.truncnorm
