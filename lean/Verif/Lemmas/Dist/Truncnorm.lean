import Verif.Model.Dist.Truncnorm
import Verif.Lemmas.Dist.Normal
import Verif.Lemmas.Shape

namespace Mpsci.truncnorm

open Classical Num common Filter Topology Set Spec MeasureTheory

variable {A B : Num}

/-- the value of the normal distribution function at an end -/
noncomputable def PE : Num → ℝ
  | fin x => Phi x
  | pinf => 1
  | _ => 0

/-- the value of a function vanishing at infinity at an end -/
def ev (T : ℝ → ℝ) : Num → ℝ
  | fin x => T x
  | _ => 0

noncomputable def delta (A B : Num) : ℝ := PE B - PE A

theorem ends (h : A < B) : (A = ninf ∨ ∃ a, A = fin a) ∧ (B = pinf ∨ ∃ b, B = fin b) := by
  cases A <;> cases B <;> first | exact h.elim | simp

theorem validate_ok (h : A < B) : validate A B = .ok (A, B) := by
  obtain ⟨rfl | ⟨a, rfl⟩, rfl | ⟨b, rfl⟩⟩ := ends h <;> simp_all [validate]

theorem PE_mono (h : A < B) : PE A < PE B := by
  obtain ⟨rfl | ⟨a, rfl⟩, rfl | ⟨b, rfl⟩⟩ := ends h
  · simp [PE]
  · simpa [PE] using Phi_pos b
  · simpa [PE] using Phi_lt_one a
  · exact Phi_strictMono (by simpa using h)

theorem delta_pos (h : A < B) : 0 < delta A B := sub_pos.2 (PE_mono h)
theorem PE_nonneg (A : Num) : 0 ≤ PE A := by cases A <;> simp [PE, (Phi_pos _).le]
theorem PE_le_one (A : Num) : PE A ≤ 1 := by cases A <;> simp [PE, (Phi_lt_one _).le]

theorem ncdf_PE (h : A ≠ nan) : mp.ncdf A = fin (PE A) := by cases A <;> simp_all [PE, mp.ncdf]
theorem ne_nan (h : A < B) : A ≠ nan ∧ B ≠ nan := by
  obtain ⟨rfl | ⟨a, rfl⟩, rfl | ⟨b, rfl⟩⟩ := ends h <;> simp

theorem normDelta_eval (h : A < B) : normDelta A B = fin (delta A B) := by
  obtain ⟨rfl | ⟨a, rfl⟩, rfl | ⟨b, rfl⟩⟩ := ends h
  · simp [normDelta, delta, PE, Num.eq]
  · simp [normDelta, delta, PE, Num.eq]
  · simp [normDelta, delta, PE, Num.eq, Phi_neg]
  · have h' : a ≠ b := ne_of_lt (by simpa using h)
    by_cases h0 : 0 < a <;> simp [normDelta, delta, PE, Num.eq, h', h0, Phi_neg]

/-- the closed support -/
def S (A B : Num) : Set ℝ := {x | A ≤ fin x ∧ fin x ≤ B}
/-- its interior -/
def P (A B : Num) : Set ℝ := {x | A < fin x ∧ fin x < B}

theorem mem_S (h : A < B) (x : ℝ) : x ∈ S A B ↔ ¬ (fin x < A ∨ fin x > B) := by
  obtain ⟨rfl | ⟨a, rfl⟩, rfl | ⟨b, rfl⟩⟩ := ends h <;> simp [S]
theorem measurable_S (h : A < B) : MeasurableSet (S A B) := by
  obtain ⟨rfl | ⟨a, rfl⟩, rfl | ⟨b, rfl⟩⟩ := ends h
  · simp [S]
  · have : S ninf (fin b) = Iic b := by ext; simp [S]
    rw [this]; exact measurableSet_Iic
  · have : S (fin a) pinf = Ici a := by ext; simp [S]
    rw [this]; exact measurableSet_Ici
  · have : S (fin a) (fin b) = Icc a b := by ext; simp [S]
    rw [this]; exact measurableSet_Icc

noncomputable def f (A B : Num) (x : ℝ) : ℝ := (S A B).indicator (fun x => phi x / delta A B) x
noncomputable def F (A B : Num) (x : ℝ) : ℝ := max 0 (min 1 ((Phi x - PE A) / delta A B))
noncomputable def Q (A B : Num) (p : ℝ) : ℝ := PhiInv (p * delta A B + PE A)

theorem f_nonneg (h : A < B) (x : ℝ) : 0 ≤ f A B x :=
  indicator_nonneg (fun x _ => div_nonneg (phi_pos x).le (delta_pos h).le) x
theorem f_off {x : ℝ} (hx : x ∉ S A B) : f A B x = 0 := indicator_of_notMem hx _
theorem f_on {x : ℝ} (hx : x ∈ S A B) : f A B x = phi x / delta A B := indicator_of_mem hx _

theorem F_left (h : A < B) {x : ℝ} (hx : fin x ≤ A) : F A B x = 0 := by
  have : Phi x ≤ PE A := by
    obtain ⟨rfl | ⟨a, rfl⟩, -⟩ := ends h
    · simp at hx
    · exact Phi_strictMono.monotone (by simpa using hx)
  exact max_eq_left (min_le_of_right_le (div_nonpos_of_nonpos_of_nonneg (by linarith) (delta_pos h).le))
theorem F_right (h : A < B) {x : ℝ} (hx : fin x ≥ B) : F A B x = 1 := by
  have : PE B ≤ Phi x := by
    obtain ⟨-, rfl | ⟨b, rfl⟩⟩ := ends h
    · simp at hx
    · exact Phi_strictMono.monotone (by simpa using hx)
  have h1 : 1 ≤ (Phi x - PE A) / delta A B := by rw [le_div_iff₀ (delta_pos h), delta]; linarith
  rw [F, min_eq_left h1, max_eq_right zero_le_one]
theorem PE_lt {x : ℝ} (hx : x ∈ P A B) : PE A < Phi x ∧ Phi x < PE B := ⟨PE_mono hx.1, PE_mono hx.2⟩
theorem F_mid (h : A < B) {x : ℝ} (hx : x ∈ P A B) :
    F A B x = (Phi x - PE A) / delta A B ∧ 0 < F A B x ∧ F A B x < 1 := by
  obtain ⟨h1, h2⟩ := PE_lt hx
  have h3 : 0 < (Phi x - PE A) / delta A B := div_pos (by linarith) (delta_pos h)
  have h4 : (Phi x - PE A) / delta A B < 1 := by rw [div_lt_one (delta_pos h), delta]; linarith
  have e : F A B x = (Phi x - PE A) / delta A B := by rw [F, min_eq_right h4.le, max_eq_right h3.le]
  exact ⟨e, e ▸ h3, e ▸ h4⟩
theorem cases_x (h : A < B) (x : ℝ) : fin x ≤ A ∨ (¬ fin x ≤ A ∧ fin x ≥ B) ∨ (¬ fin x ≤ A ∧ ¬ fin x ≥ B ∧ x ∈ P A B) := by
  obtain ⟨rfl | ⟨a, rfl⟩, rfl | ⟨b, rfl⟩⟩ := ends h <;> simp [P] <;> grind

theorem cdf_eval (h : A < B) (x : ℝ) : cdf (fin x) A B = .ok (fin (F A B x)) := by
  rcases cases_x h x with hx | ⟨h1, hx⟩ | ⟨h1, h2, hx⟩
  · simp [cdf, validate_ok h, hx, F_left h hx]
  · simp only [cdf, validate_ok h, ok_bind, h1, hx, if_true, if_false, F_right h hx]; rfl
  · simp only [cdf, validate_ok h, ok_bind, h1, h2, if_false, normDelta_eval h, normDelta_eval hx.1,
      fin_div _ (delta_pos h).ne', (F_mid h hx).1]
    rfl
theorem sf_eval (h : A < B) (x : ℝ) : sf (fin x) A B = .ok (fin (1 - F A B x)) := by
  rcases cases_x h x with hx | ⟨h1, hx⟩ | ⟨h1, h2, hx⟩
  · simp [sf, validate_ok h, hx, F_left h hx]
  · simp only [sf, validate_ok h, ok_bind, h1, hx, if_true, if_false, F_right h hx, sub_self]; rfl
  · have h0 := (delta_pos h).ne'
    simp only [sf, validate_ok h, ok_bind, h1, h2, if_false, normDelta_eval h, normDelta_eval hx.2,
      fin_div _ h0, (F_mid h hx).1]
    congr 2
    rw [eq_sub_iff_add_eq, ← add_div, div_eq_one_iff_eq h0]
    simp only [delta, PE]; ring
theorem pdf_eval (h : A < B) (x : ℝ) : pdf (fin x) A B = .ok (fin (f A B x)) := by
  by_cases hx : x ∈ S A B
  · have h' := (mem_S h x).1 hx
    simp only [pdf, validate_ok h, ok_bind, h', if_false, zero_def, one_def, mp.npdf_std', normDelta_eval h,
      fin_div _ (delta_pos h).ne', f_on hx]
  · have h' := not_not.1 (mt (mem_S h x).2 hx)
    simp only [pdf, validate_ok h, ok_bind, h', if_true, f_off hx]; rfl
theorem logpdf_on (h : A < B) {x : ℝ} (hx : x ∈ S A B) : logpdf (fin x) A B = .ok (fin (Real.log (f A B x))) := by
  have h' := (mem_S h x).1 hx
  simp only [logpdf, validate_ok h, ok_bind, h', if_false, zero_def, one_def, normal.std_logpdf, normDelta_eval h,
    mp.log_pos (delta_pos h), fin_sub, pure_eq_ok, f_on hx, Real.log_div (phi_pos x).ne' (delta_pos h).ne']
theorem logpdf_off (h : A < B) {x : ℝ} (hx : x ∉ S A B) : logpdf (fin x) A B = .ok ninf := by
  have h' := not_not.1 (mt (mem_S h x).2 hx)
  simp only [logpdf, validate_ok h, ok_bind, h', if_true]; rfl

theorem isDist (h : A < B) : IsDist (F A B) (f A B) := by
  have h0 := delta_pos h
  have hF : Monotone fun x => (Phi x - PE A) / delta A B := fun x y hxy =>
    div_le_div_of_nonneg_right (sub_le_sub_right (Phi_strictMono.monotone hxy) _) h0.le
  have hd (x : ℝ) : HasDerivAt (fun x => (Phi x - PE A) / delta A B) (phi x / delta A B) x :=
    ((hasDerivAt_Phi x).sub_const _).div_const _
  have hc : Continuous fun x => (Phi x - PE A) / delta A B := continuous_iff_continuousAt.2 fun x => (hd x).continuousAt
  have hfin : {x : ℝ | fin x = A ∨ fin x = B}.Countable := by
    have hA (C : Num) : {x : ℝ | fin x = C}.Countable :=
      (Set.subsingleton_of_forall_eq (match C with | fin c => c | _ => 0) (by
        rintro x rfl; rfl)).countable
    exact (hA A).union (hA B)
  refine isDist_of_mono (E := {x | fin x = A ∨ fin x = B}) hfin
    (monotone_const.max (monotone_const.min hF)) (continuous_const.max (continuous_const.min hc)) (fun x hx => ?_)
    (f_nonneg h) ?_ ?_
  · have hx1 : fin x ≠ A := fun e => hx (Or.inl e)
    have hx2 : fin x ≠ B := fun e => hx (Or.inr e)
    rcases cases_x h x with hl | ⟨_, hr⟩ | ⟨_, _, hm⟩
    · obtain ⟨rfl | ⟨a, rfl⟩, -⟩ := ends h
      · simp at hl
      · have hlt : x < a := lt_of_le_of_ne (by simpa using hl) (by simpa using hx1)
        have : f (fin a) B x = 0 := f_off fun hS => absurd hS.1 (by simpa using hlt)
        rw [this]
        refine (hasDerivAt_const x (0:ℝ)).congr_of_eventuallyEq ?_
        filter_upwards [Iio_mem_nhds hlt] with y hy using F_left h (by simpa using hy.le)
    · obtain ⟨-, rfl | ⟨b, rfl⟩⟩ := ends h
      · simp at hr
      · have hlt : b < x := lt_of_le_of_ne (by simpa using hr) (by simpa [eq_comm] using hx2)
        have : f A (fin b) x = 0 := f_off fun hS => absurd hS.2 (by simpa using hlt)
        rw [this]
        refine (hasDerivAt_const x (1:ℝ)).congr_of_eventuallyEq ?_
        filter_upwards [Ioi_mem_nhds hlt] with y hy using F_right h (by simpa using hy.le)
    · have hopen : IsOpen (P A B) := by
        obtain ⟨rfl | ⟨a, rfl⟩, rfl | ⟨b, rfl⟩⟩ := ends h
        · simp [P]
        · have : P ninf (fin b) = Iio b := by ext; simp [P]
          rw [this]; exact isOpen_Iio
        · have : P (fin a) pinf = Ioi a := by ext; simp [P]
          rw [this]; exact isOpen_Ioi
        · have : P (fin a) (fin b) = Ioo a b := by ext; simp [P]
          rw [this]; exact isOpen_Ioo
      have hS : x ∈ S A B := by
        obtain ⟨rfl | ⟨a, rfl⟩, rfl | ⟨b, rfl⟩⟩ := ends h <;> simp [P, S] at hm ⊢ <;> grind
      rw [f_on hS]
      refine (hd x).congr_of_eventuallyEq ?_
      filter_upwards [hopen.mem_nhds hm] with y hy using (F_mid h hy).1
  · have h1 := (tendsto_const_nhds (x := (0:ℝ))).max ((tendsto_const_nhds (x := (1:ℝ))).min
      ((Phi_atBot.sub_const (PE A)).div_const (delta A B)))
    rwa [max_eq_left (min_le_of_right_le (div_nonpos_of_nonpos_of_nonneg (by have := PE_nonneg A; linarith) h0.le))]
      at h1
  · have h1 := (tendsto_const_nhds (x := (0:ℝ))).max ((tendsto_const_nhds (x := (1:ℝ))).min
      ((Phi_atTop.sub_const (PE A)).div_const (delta A B)))
    have h2 : 1 ≤ (1 - PE A) / delta A B := by rw [le_div_iff₀ h0, delta]; have := PE_le_one B; linarith
    rwa [min_eq_left h2, max_eq_right zero_le_one] at h1

theorem q_mem (h : A < B) {p : ℝ} (h0 : 0 < p) (h1 : p < 1) :
    PE A < p * delta A B + PE A ∧ p * delta A B + PE A < PE B := by
  have := delta_pos h
  refine ⟨by have := mul_pos h0 this; linarith, ?_⟩
  have h2 : p * delta A B < 1 * delta A B := mul_lt_mul_of_pos_right h1 this
  have h3 : delta A B = PE B - PE A := rfl
  linarith

theorem invcdf_eval (h : A < B) {p : ℝ} (h0 : 0 < p) (h1 : p < 1) : invcdf (fin p) A B = .ok (fin (Q A B p)) := by
  obtain ⟨a, b⟩ := q_mem h h0 h1
  simp only [invcdf, validateP_ok h0.le h1.le, validate_ok h, ok_bind, normDelta_eval h, ncdf_PE (ne_nan h).1, fin_mul,
    fin_add, zero_def, one_def, normal.std_invcdf ((PE_nonneg A).trans_lt a) (b.trans_le (PE_le_one B)), Q]
theorem invsf_eval (h : A < B) {p : ℝ} (h0 : 0 < p) (h1 : p < 1) : invsf (fin p) A B = .ok (fin (Q A B (1 - p))) := by
  obtain ⟨a, b⟩ := q_mem h (p := 1 - p) (by linarith) (by linarith)
  have e : -p * delta A B + PE B = (1 - p) * delta A B + PE A := by simp only [delta]; ring
  simp only [invsf, validateP_ok h0.le h1.le, validate_ok h, ok_bind, normDelta_eval h, ncdf_PE (ne_nan h).2, neg_fin,
    fin_mul, fin_add, zero_def, one_def, e,
    normal.std_invcdf ((PE_nonneg A).trans_lt a) (b.trans_le (PE_le_one B)), Q]

theorem mem_P_iff (h : A < B) (x : ℝ) : x ∈ P A B ↔ PE A < Phi x ∧ Phi x < PE B := by
  refine ⟨PE_lt, fun ⟨h1, h2⟩ => ?_⟩
  rcases cases_x h x with hx | ⟨_, hx⟩ | ⟨_, _, hx⟩
  · exfalso
    obtain ⟨rfl | ⟨a, rfl⟩, -⟩ := ends h
    · simp at hx
    · exact absurd (Phi_strictMono.monotone (show x ≤ a by simpa using hx)) (not_le.2 h1)
  · exfalso
    obtain ⟨-, rfl | ⟨b, rfl⟩⟩ := ends h
    · simp at hx
    · exact absurd (Phi_strictMono.monotone (show b ≤ x by simpa using hx)) (not_le.2 h2)
  · exact hx

theorem F_Q (h : A < B) {p : ℝ} (h0 : 0 < p) (h1 : p < 1) : Q A B p ∈ P A B ∧ F A B (Q A B p) = p := by
  obtain ⟨a, b⟩ := q_mem h h0 h1
  have e : Phi (Q A B p) = p * delta A B + PE A :=
    Phi_PhiInv ((PE_nonneg A).trans_lt a) (b.trans_le (PE_le_one B))
  have hm : Q A B p ∈ P A B := (mem_P_iff h _).2 (e ▸ ⟨a, b⟩)
  refine ⟨hm, ?_⟩
  rw [(F_mid h hm).1, e, add_sub_cancel_right, mul_div_cancel_right₀ _ (delta_pos h).ne']
theorem Q_F (h : A < B) {x : ℝ} (hx : x ∈ P A B) : 0 < F A B x ∧ F A B x < 1 ∧ Q A B (F A B x) = x := by
  obtain ⟨e, h0, h1⟩ := F_mid h hx
  refine ⟨h0, h1, ?_⟩
  rw [Q, e, div_mul_cancel₀ _ (delta_pos h).ne', sub_add_cancel, PhiInv_Phi]

/-! ### Moments -/

theorem integral_S (h : A < B) {T g : ℝ → ℝ} (hd : ∀ x, HasDerivAt T (g x) x) (hi : Integrable g)
    (hb : Tendsto T atBot (𝓝 0)) (ht : Tendsto T atTop (𝓝 0)) : ∫ x in S A B, g x = ev T B - ev T A := by
  obtain ⟨rfl | ⟨a, rfl⟩, rfl | ⟨b, rfl⟩⟩ := ends h
  · have : S ninf pinf = univ := by ext; simp [S]
    rw [this, setIntegral_univ, integral_of_hasDerivAt_of_tendsto hd hi hb ht]; simp [ev]
  · have : S ninf (fin b) = Iic b := by ext; simp [S]
    rw [this, integral_Iic_of_hasDerivAt_of_tendsto' (fun x _ => hd x) hi.integrableOn hb]; simp [ev]
  · have : S (fin a) pinf = Ici a := by ext; simp [S]
    rw [this, integral_Ici_eq_integral_Ioi, integral_Ioi_of_hasDerivAt_of_tendsto' (fun x _ => hd x) hi.integrableOn ht]
    simp [ev]
  · have : S (fin a) (fin b) = Icc a b := by ext; simp [S]
    have hab : a ≤ b := le_of_lt (by simpa using h)
    rw [this, integral_Icc_eq_integral_Ioc, ← intervalIntegral.integral_of_le hab,
      intervalIntegral.integral_eq_sub_of_hasDerivAt (fun x _ => hd x) hi.intervalIntegrable]; simp [ev]

/-- the moments -/
noncomputable def mom (A B : Num) (n : ℕ) : ℝ := ∫ x, x ^ n * f A B x

/-- `x^n phi x` at an end, divided by `delta` -/
noncomputable def bd (n : ℕ) (A B C : Num) : ℝ := ev (fun x => x ^ n * phi x) C / delta A B

theorem integrable_mom (h : A < B) (n : ℕ) : Integrable fun x => x ^ n * f A B x := by
  refine (((integrable_pow_phi n).indicator (measurable_S h)).div_const (delta A B)).congr (Eventually.of_forall fun x => ?_)
  by_cases hx : x ∈ S A B
  · simp [f_on hx, hx, mul_div_assoc]
  · simp [f_off hx, hx]

theorem mom_eq (h : A < B) (n : ℕ) : mom A B n = (∫ x in S A B, x ^ n * phi x) / delta A B := by
  rw [← integral_indicator (measurable_S h), ← integral_div]
  refine integral_congr_ae (Eventually.of_forall fun x => ?_)
  by_cases hx : x ∈ S A B
  · simp [f_on hx, hx, mul_div_assoc]
  · simp [f_off hx, hx]

theorem mom_zero (h : A < B) : mom A B 0 = 1 := by simpa [mom] using (isDist h).integral_one

theorem mom_succ (h : A < B) (n : ℕ) : mom A B (n + 1) = n * mom A B (n - 1) + bd n A B A - bd n A B B := by
  have hd : ∀ x, HasDerivAt (fun x => -(x ^ n * phi x)) (x ^ (n + 1) * phi x - n * (x ^ (n - 1) * phi x)) x := fun x => by
    refine ((hasDerivAt_pow n x).mul (hasDerivAt_phi x)).neg.congr_deriv ?_
    ring
  have hi : Integrable fun x => x ^ (n + 1) * phi x - n * (x ^ (n - 1) * phi x) :=
    (integrable_pow_phi _).sub ((integrable_pow_phi _).const_mul _)
  have := integral_S h hd hi (by simpa using (tendsto_pow_phi_bot n).neg) (by simpa using (tendsto_pow_phi n).neg)
  rw [integral_sub (integrable_pow_phi _).integrableOn ((integrable_pow_phi _).const_mul _).integrableOn,
    integral_const_mul] at this
  have e (C : Num) : ev (fun x => -(x ^ n * phi x)) C = -ev (fun x => x ^ n * phi x) C := by cases C <;> simp [ev]
  rw [e, e] at this
  rw [mom_eq h, mom_eq h, bd, bd, eq_sub_iff_add_eq, mul_div_assoc', ← add_div, ← add_div]
  congr 1; linarith

theorem int01_mom (h : A < B) (n : ℕ) : Int01 (fun p => Q A B p ^ n) (mom A B n) := by
  obtain ⟨h1, h2⟩ := (isDist h).expect (fun p h0 h1 => (F_Q h h0 h1).2) (h := fun x => x ^ n) (by fun_prop)
  exact ⟨h1.2 (integrable_mom h n), h2⟩

theorem npdf_end (C : Num) (hC : C ≠ nan) : mp.npdf C = .ok (fin (ev phi C)) := by
  have h2 : Real.sqrt (2 * Real.pi) ≠ 0 := sqrt_two_pi_pos.ne'
  cases C with
  | fin x => exact mp.npdf_std x
  | pinf =>
    simp only [mp.npdf, zero_def, one_def]
    simp [-Real.sqrt_mul', -Real.sqrt_mul, ninf_div_pos two_pos, fin_div _ h2, ev]
  | ninf =>
    simp only [mp.npdf, zero_def, one_def]
    simp [-Real.sqrt_mul', -Real.sqrt_mul, ninf_div_pos two_pos, fin_div _ h2, ev]
  | nan => exact absurd rfl hC

theorem pdf_A (h : A < B) : pdf A A B = .ok (fin (bd 0 A B A)) := by
  have h' : ¬ (A < A ∨ A > B) := by
    obtain ⟨rfl | ⟨a, rfl⟩, rfl | ⟨b, rfl⟩⟩ := ends h <;> simp_all <;> exact h.le
  simp only [pdf, validate_ok h, ok_bind, h', if_false, npdf_end _ (ne_nan h).1, normDelta_eval h,
    fin_div _ (delta_pos h).ne', bd, pow_zero, one_mul]
theorem pdf_B (h : A < B) : pdf B A B = .ok (fin (bd 0 A B B)) := by
  have h' : ¬ (B < A ∨ B > B) := by
    obtain ⟨rfl | ⟨a, rfl⟩, rfl | ⟨b, rfl⟩⟩ := ends h <;> simp_all <;> exact h.le
  simp only [pdf, validate_ok h, ok_bind, h', if_false, npdf_end _ (ne_nan h).2, normDelta_eval h,
    fin_div _ (delta_pos h).ne', bd, pow_zero, one_mul]

theorem bd0_eq_zero (h : A < B) (C : Num) : bd 0 A B C = 0 ↔ ∀ x, C ≠ fin x := by
  have := (delta_pos h).ne'
  cases C <;> simp [bd, ev, this, (phi_pos _).ne']

/-- the end as used in the recurrence: 0 if it is infinite -/
def fe : Num → ℝ
  | fin x => x
  | _ => 0

theorem end_if (h : A < B) (C : Num) : (if Num.eq (fin (bd 0 A B C)) 0 then 0 else C) = fin (fe C) := by
  cases C with
  | fin x => simp [(bd0_eq_zero h (fin x)).not, fe]
  | pinf => simp [(bd0_eq_zero h pinf).2, fe]
  | ninf => simp [(bd0_eq_zero h ninf).2, fe]
  | nan => simp [(bd0_eq_zero h nan).2, fe]
theorem bd_succ (n : ℕ) (C : Num) : fe C * bd n A B C = bd (n + 1) A B C := by
  cases C <;> simp [bd, ev, fe]; ring
theorem term_if (h : A < B) (C : Num) :
    (if Num.eq (fin (bd 0 A B C)) 0 then 0 else C * fin (bd 0 A B C)) = fin (bd 1 A B C) := by
  cases C with
  | fin x => rw [← bd_succ]; simp [(bd0_eq_zero h (fin x)).not, fe]
  | pinf => simp [(bd0_eq_zero h pinf).2, bd, ev]
  | ninf => simp [(bd0_eq_zero h ninf).2, bd, ev]
  | nan => simp [(bd0_eq_zero h nan).2, bd, ev]

theorem mom_one (h : A < B) : mom A B 1 = bd 0 A B A - bd 0 A B B := by
  rw [mom_succ h 0]; simp
theorem mom_two (h : A < B) : mom A B 2 = 1 + bd 1 A B A - bd 1 A B B := by
  rw [mom_succ h 1]; simp [mom_zero h]

theorem fold_moments (h : A < B) (n : ℕ) :
    (List.range n).foldl (momentStep (fin (fe A)) (fin (fe B)))
      (fin (bd 1 A B A), fin (bd 1 A B B), [fin (mom A B 1), fin (mom A B 2)]) =
    (fin (bd (n + 1) A B A), fin (bd (n + 1) A B B), (List.range (n + 2)).map fun i => fin (mom A B (i + 1))) := by
  induction n with
  | zero => simp [List.range_succ]
  | succ n ih =>
    rw [List.range_succ, List.foldl_append, ih, List.foldl_cons, List.foldl_nil, momentStep]
    have hg : ((List.range (n + 2)).map fun i => fin (mom A B (i + 1))).getD n nan = fin (mom A B (n + 1)) := by
      simp [List.getD]
    simp only [hg, fin_mul, fin_add, fin_sub, bd_succ]
    rw [List.range_succ (n := n + 1 + 1), List.map_append]
    simp only [List.map_cons, List.map_nil]
    rw [show mom A B (n + 1 + 1 + 1) = ((n:ℝ) + 3 - 1) * mom A B (n + 1) + bd (n + 1 + 1) A B A - bd (n + 1 + 1) A B B by
      rw [mom_succ h (n + 1 + 1), show n + 1 + 1 - 1 = n + 1 from rfl]; push_cast; ring]

theorem noncentralMoments_eval (h : A < B) (n : ℕ) (hn : 2 ≤ n) :
    noncentralMoments n A B = .ok ((List.range n).map fun i => fin (mom A B (i + 1))) := by
  obtain ⟨k, rfl⟩ := Nat.exists_eq_add_of_le' hn
  simp only [noncentralMoments, validate_ok h, ok_bind, pdf_A h, pdf_B h, end_if h, fin_mul, bd_succ, hn, ge_iff_le,
    if_true, pure_eq_ok, one_def, fin_add, fin_sub, zero_add, ← mom_one h, ← mom_two h, List.cons_append, List.nil_append,
    Nat.add_sub_cancel, fold_moments h]

end Mpsci.truncnorm
