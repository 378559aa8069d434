import Verif.Lemmas.Dist.Uniform

/-! Properties of `uniform`. -/

namespace Mpsci.uniform

open Classical Num Spec common Filter Topology Set 

variable {a b : ℝ}

/-- C01 -/
theorem complementary (h : a < b) : Complementary (cdf · (fin a) (fin b)) (sf · (fin a) (fin b)) :=
  complementary_of (cdf_eval h) (sf_eval h)

/-- C02 -/
theorem isCdf (h : a < b) : IsCdf (cdf · (fin a) (fin b)) := (isDist h).isCdf (cdf_eval h)

/-- C03 -/
theorem isDensity (h : a < b) : IsDensity ∅ (Icc a b) (pdf · (fin a) (fin b)) (cdf · (fin a) (fin b)) :=
  (isDist h).isDensity (fun x hx => pdf_eval h x) (cdf_eval h) (f_zero h)

/-- C05 -/
theorem inverts_cdf (h : a < b) : Inverts (Ioo a b) (cdf · (fin a) (fin b)) (invcdf · (fin a) (fin b)) := 
  inverts_of (fun x _ => cdf_eval h x) (fun _ => invcdf_eval h) (fun _ => F_Q h)
    (fun _ => Q_F h)

/-- C05 -/
theorem inverts_sf (h : a < b) : Inverts (Ioo a b) (sf · (fin a) (fin b)) (invsf · (fin a) (fin b)) := 
  inverts_compl (fun x _ => sf_eval h x) (fun _ => invsf_eval h) (fun _ => F_Q h)
    (fun _ => Q_F h)

/-- C06 -/
theorem rejects_p : RejectsBadP (invcdf · (fin a) (fin b)) ∧ RejectsBadP (invsf · (fin a) (fin b)) := by
  by_cases h : a < b
  · constructor <;> intro p hp <;> simp [invcdf, invsf, validateP_bad hp, validate_ok h]
  · constructor <;> intro p hp <;> simp [invcdf, invsf, validateP_bad hp, validate_bad h]

/-- C07 -/
theorem validates (x : ℝ) :
    ValidatesExactly (a < b) (cdf (fin x) (fin a) (fin b)) ∧
    ValidatesExactly (a < b) (sf (fin x) (fin a) (fin b)) ∧
    ValidatesExactly (a < b) (pdf (fin x) (fin a) (fin b)) ∧
    ValidatesExactly (a < b) (logpdf (fin x) (fin a) (fin b)) := by
  refine ⟨⟨fun h => ⟨_, cdf_eval h x⟩, fun h => ?_⟩, ⟨fun h => ⟨_, sf_eval h x⟩, fun h => ?_⟩,
    ⟨fun h => pdf_returns h x, fun h => ?_⟩, ⟨fun h => logpdf_returns h x, fun h => ?_⟩⟩ <;>
  simp [cdf, sf, pdf, logpdf, validate_bad h]

/-- C08: affine change of variable to the unit interval -/
theorem affine (h : a < b) (x : ℝ) :
    cdf (fin x) (fin a) (fin b) = cdf (fin ((x - a) / (b - a))) 0 1 := by
  have h0 : 0 < b - a := by linarith
  have e1 : (x - a) / (b - a) < 0 ↔ x < a := affine_lt_zero h0
  have e2 : 1 < (x - a) / (b - a) ↔ b < x := by
    rw [lt_div_iff₀ h0]; constructor <;> intro h <;> linarith
  simp only [zero_def, one_def, cdf_eval h, cdf_eval one_pos, F, e1, e2, sub_zero, div_one]

/-- C04 -/
theorem isLogOf (h : a < b) :
    IsLogOf ∅ (pdf · (fin a) (fin b)) (logpdf · (fin a) (fin b)) :=
  isLogOf_of (P := Icc a b) (fun _ _ hx => f_pos h hx) (fun x _ hx => f_zero h x hx)
    (fun x _ => pdf_eval h x) (fun _ _ hx => logpdf_in h hx) (fun _ _ hx => logpdf_out h hx)

/-- C10 -/
theorem isMedian (h : a < b) : IsMedian (cdf · (fin a) (fin b)) (median (fin a) (fin b)) := by
  refine isMedian_of (m := (a + b) / 2) (by simp [median, validate_ok h]) ?_
  have := (F_Q h (p := 1 / 2) (by norm_num) (by norm_num)).2
  have e : Q a b (1 / 2) = (a + b) / 2 := by rw [Q]; ring
  rw [e] at this
  rw [cdf_eval h, this]

/-- C41 -/
theorem endPoints (h : a < b) :
    EndPoints (invcdf · (fin a) (fin b)) (fin a) (fin b) ∧
    EndPoints (invsf · (fin a) (fin b)) (fin b) (fin a) := by
  refine ⟨⟨?_, ?_⟩, ⟨?_, ?_⟩⟩ <;> simp [invcdf, invsf, validateP_ok, validate_ok h]

/-- C48 -/
theorem atInfinities (h : a < b) :
    AtInfinities (cdf · (fin a) (fin b)) (sf · (fin a) (fin b)) := by
  refine ⟨?_, ?_, ?_, ?_⟩ <;> simp [cdf, sf, validate_ok h]

theorem support_eq (h : a < b) : support (fin a) (fin b) = .ok (fin a, fin b) := by
  simp [support, validate_ok h]

/-- Non-vacuity: `a = -1`, `b = 3`. -/
example : (-1:ℝ) < 3 ∧ cdf (fin 0) (fin (-1)) (fin 3) = .ok (fin (1 / 4)) := by
  refine ⟨by norm_num, ?_⟩
  rw [cdf_eval (by norm_num)]; simp [F]; norm_num

end Mpsci.uniform
