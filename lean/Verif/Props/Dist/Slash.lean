import Verif.Lemmas.Dist.Slash
import Verif.Spec.Moments

/-! Properties of `slash`. -/

namespace Mpsci.slash

open Classical Num Spec common Filter Topology Set

variable {findroot : (Num → M Num) → Num → M Num}

/-- C01 -/
theorem complementary : Complementary cdf sf := complementary_of cdf_eval sf_eval

/-- C02 -/
theorem isCdf : IsCdf cdf := isDist.isCdf cdf_eval

/-- C03 -/
theorem isDensity : IsDensity ∅ univ pdf cdf := isDist.isDensity (fun x _ => pdf_eval x) cdf_eval (by simp)

/-- C04 -/
theorem isLogOf : IsLogOf ∅ pdf logpdf :=
  isLogOf_pos (fun x _ => f_pos x) (fun x _ => pdf_eval x) (fun x _ => logpdf_eval x)

/-- C05 -/
theorem inverts_cdf (hr : NewtonFinder findroot) : Inverts univ cdf (invcdf findroot) :=
  inverts_of_spec (fun x _ => cdf_eval x) (fun x _ => F_mem x) strictMono_F.injective.injOn
    (fun _ h0 h1 => by obtain ⟨x, h⟩ := invcdf_spec hr h0 h1; exact ⟨x, mem_univ x, h⟩)

/-- C05 -/
theorem inverts_sf (hr : NewtonFinder findroot) : Inverts univ sf (invsf findroot) :=
  inverts_of_spec (F := fun x => 1 - F x) (fun x _ => sf_eval x)
    (fun x _ => ⟨by linarith [(F_mem x).2], by linarith [(F_mem x).1]⟩)
    (fun x _ y _ h => strictMono_F.injective (by simp only at h; linarith))
    (fun _ h0 h1 => by obtain ⟨x, h⟩ := invsf_spec hr h0 h1; exact ⟨x, mem_univ x, h⟩)

/-- C06 -/
theorem rejects_p : RejectsBadP (invcdf findroot) ∧ RejectsBadP (invsf findroot) := by
  constructor <;> intro p hp <;>
  simp only [invcdf, invsf, zero_def, one_def, mp.npdf_std', ok_bind, validateP_bad hp] <;> rfl

/-- C09 -/
theorem isMode : IsMode ∅ pdf mode := isMode_of rfl (fun x _ => pdf_eval x) (notMem_empty _) fun y _ => f_le y

/-- C11 -/
theorem symmetric (x : ℝ) : pdf (fin (-x)) = pdf (fin x) ∧ cdf (fin (-x)) = sf (fin x) := by
  rw [pdf_eval, pdf_eval, cdf_eval, sf_eval, F_neg]
  refine ⟨?_, rfl⟩
  simp [f, d_even]

/-- C37, negation: `mean()` returns 0, but the distribution has no mean. -/
theorem mean_fails : mean = .ok 0 ∧ ¬ ∃ r, IsMean ∅ pdf r := by
  refine ⟨rfl, ?_⟩
  rintro ⟨r, _, g, m, hg, _, hi, _⟩
  refine not_integrable (hi.congr (Eventually.of_forall fun x => ?_))
  have h := hg x (notMem_empty x)
  rw [pdf_eval] at h
  simp only [Num.fin.inj (Except.ok.inj h)]

/-- C41 -/
theorem endPoints : EndPoints (invcdf findroot) ninf pinf ∧ EndPoints (invsf findroot) pinf ninf := by
  refine ⟨⟨?_, ?_⟩, ⟨?_, ?_⟩⟩ <;>
  simp only [invcdf, invsf, one_def, zero_def, mp.npdf_std', validateP_ok le_rfl zero_le_one,
    validateP_ok zero_le_one le_rfl, ok_bind, fin_eq, one_ne_zero, if_true, if_false, pure_eq_ok]

/-- C48 -/
theorem atInfinities : AtInfinities cdf sf := by
  have n1 : mp.npdf pinf (fin 0) (fin 1) = .ok (fin 0) := by
    simp [mp.npdf, ninf_div_pos (two_pos (α := ℝ)), fin_div _ sqrt_two_pi_pos.ne', -Real.sqrt_mul, -Real.sqrt_mul']
  have n2 : mp.npdf ninf (fin 0) (fin 1) = .ok (fin 0) := by
    simp [mp.npdf, ninf_div_pos (two_pos (α := ℝ)), fin_div _ sqrt_two_pi_pos.ne', -Real.sqrt_mul, -Real.sqrt_mul']
  have h1 : delta pinf = .ok (fin (phi 0)) := by
    simp [delta, zero_def, one_def, mp.npdf_std', n1]
  have h2 : delta ninf = .ok (fin (phi 0)) := by
    simp [delta, zero_def, one_def, mp.npdf_std', n2]
  refine ⟨?_, ?_, ?_, ?_⟩ <;> simp [cdf, sf, h1, h2]

/-- Non-vacuity: there is a root finder, and the density at 0 is half the normal density. -/
example : ∃ fr, NewtonFinder fr := exists_newtonFinder
example : pdf (fin 0) = .ok (fin (phi 0 / 2)) := by rw [pdf_eval]; simp [f]

end Mpsci.slash
