import Verif.Model.Disc.Support
import Verif.Spec.Support
import Verif.Props.Disc.Poisson
import Verif.Props.Disc.NegBinomial
import Verif.Props.Disc.Logseries
import Verif.Props.Disc.GaussKuzmin

/-! `support` of the distributions on all natural or all positive numbers. -/

namespace Mpsci

open Classical Num Spec

theorem isSupportSeq_of {pmf : ℤ → M Num} {f : ℕ → ℝ} {a : ℕ} (h : ∀ k, pmf k = .ok (fin (extZ f k))) (h0 : ∀ k < a, f k = 0)
    (h1 : ∀ k, a ≤ k → 0 < f k) : IsSupportSeq pmf (pure (py.count a)) := by
  refine ⟨py.count a, rfl, fun i j hij => by simp only [py.count]; omega, fun k => ⟨?_, ?_⟩⟩
  · rintro ⟨i, rfl⟩
    refine ⟨f (a + i), ?_, h1 _ (by omega)⟩
    rw [h, py.count, ← Nat.cast_add, extZ_nat]
  · rintro ⟨v, hv, hp⟩
    rw [h] at hv
    have hv := fin.inj (Except.ok.inj hv)
    rcases lt_or_ge k 0 with hk | hk
    · rw [extZ_neg _ hk] at hv; linarith
    · obtain ⟨n, rfl⟩ := Int.eq_ofNat_of_zero_le hk
      rw [extZ_nat] at hv
      have hn : a ≤ n := by
        by_contra hlt
        rw [h0 n (by omega)] at hv; linarith
      exact ⟨n - a, by simp only [py.count]; omega⟩

/-- C68 -/
theorem poisson.isSupport {lam : ℝ} (h : 0 < lam) : IsSupportSeq (poisson.pmf · (fin lam)) (poisson.support (fin lam)) := by
  have e : poisson.support (fin lam) = pure (py.count (0:ℕ)) := by simp [poisson.support, poisson.validate_ok h]
  rw [e]
  exact isSupportSeq_of (poisson.pmf_eval h) (by simp) fun k _ => poisson.P_pos h k
/-- C68: an invalid parameter is rejected. -/
theorem poisson.support_rejects {lam : ℝ} (h : lam ≤ 0) : poisson.support (fin lam) = .error .valueError := by
  have : poisson.validateLam (fin lam) = .error .valueError := by simp [poisson.validateLam, h]
  simp [poisson.support, this]

/-- C68 -/
theorem negative_binomial.isSupport {r p : ℝ} (hr : 1 ≤ r) (h0 : 0 < p) (h1 : p < 1) :
    IsSupportSeq (negative_binomial.pmf · (fin r) (fin p)) (negative_binomial.support (fin r) (fin p)) :=
  isSupportSeq_of (a := 0) (negative_binomial.pmf_eval hr h0.le h1) (by simp) fun k _ => negative_binomial.N_pos (by linarith) h0 h1 k
/-- C68 fails for invalid parameters: unlike `pmf`, `support` accepts them. -/
theorem negative_binomial.support_accepts : (∃ f, negative_binomial.support (fin (-1)) (fin 2) = .ok f) ∧
    ∀ k, negative_binomial.pmf k (fin (-1)) (fin 2) = .error .valueError :=
  ⟨⟨_, rfl⟩, fun k => (negative_binomial.rejects (Or.inl (by norm_num)) k).1⟩

/-- C68 -/
theorem logseries.isSupport {p : ℝ} (h0 : 0 < p) (h1 : p < 1) : IsSupportSeq (logseries.pmf · (fin p)) (logseries.support (fin p)) :=
  isSupportSeq_of (a := 1) (logseries.pmf_eval h0 h1) (fun k hk => by obtain rfl : k = 0 := by omega
                                                                      exact logseries.S_zero p)
    fun k hk => logseries.S_pos h0 h1 hk
/-- C68 fails for invalid parameters: unlike `pmf`, `support` accepts them. -/
theorem logseries.support_accepts : (∃ f, logseries.support (fin 2) = .ok f) ∧ ∀ k, logseries.pmf k (fin 2) = .error .valueError :=
  ⟨⟨_, rfl⟩, fun k => (logseries.rejects (Or.inr (by norm_num)) k).1⟩

/-- C68 -/
theorem gauss_kuzmin.isSupport : IsSupportSeq (fun k => gauss_kuzmin.pmf (ofInt k)) gauss_kuzmin.support :=
  isSupportSeq_of (a := 1) gauss_kuzmin.pmf_eval (fun k hk => by obtain rfl : k = 0 := by omega
                                                                 rfl)
    fun k hk => by obtain ⟨m, rfl⟩ := Nat.exists_eq_add_of_le' hk
                   exact gauss_kuzmin.K_pos m

/-- C07: `_validate_int` accepts exactly the integers. -/
theorem common.validateInt_spec (x : ℝ) (k : ℤ) : common.validateInt (fin x) = .ok k ↔ x = k := by
  constructor
  · intro h
    by_cases hx : x = ((if 0 ≤ x then ⌊x⌋ else ⌈x⌉ : ℤ) : ℝ)
    · simp only [common.validateInt, py.int, ok_bind, ofInt_def, fin_eq, ← hx, not_true_eq_false, if_false] at h
      rw [hx, Except.ok.inj h]
    · simp only [common.validateInt, py.int, ok_bind, ofInt_def, fin_eq, if_pos hx] at h
      exact absurd h (by simp [throw, throwThe, MonadExceptOf.throw])
  · rintro rfl
    simp [common.validateInt]
/-- C07: everything else raises ValueError. -/
theorem common.validateInt_rejects {x : ℝ} (h : ∀ k : ℤ, x ≠ k) : common.validateInt (fin x) = .error .valueError := by
  simp only [common.validateInt, py.int, ok_bind, ofInt_def, fin_eq, if_pos (h _)]; rfl

end Mpsci
