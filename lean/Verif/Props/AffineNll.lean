import Verif.Spec.Affine
import Verif.Props.Fit.Logistic
import Verif.Props.Fit.Gumbel
import Verif.Props.Fit.Gamma
import Verif.Props.Fit.Pareto
import Verif.Props.Fit.Weibull
import Verif.Props.Fit.Gompertz
import Verif.Props.Fit.Nakagami
import Verif.Props.Fit.BetaPrime
import Verif.Props.Fit.Burr12
import Verif.Props.Fit.Benini
import Verif.Props.Fit.LogGamma
import Verif.Props.Dist.Normal
import Verif.Props.Dist.Lognormal
import Verif.Props.Dist.Hypsecant

/-! C79: the likelihood follows a change of the units of the data. -/

namespace Mpsci.affineNll

open Classical Num Spec common

variable {a c loc s : ℝ}

theorem follows {S S' : Set ℝ} {lp lp' : Num → M Num} {nll nll' : List Num → M Num} {l l' : ℝ → ℝ}
    (h : NllIsNegSum S lp nll) (h' : NllIsNegSum S' lp' nll') (hS : ∀ x ∈ S, a + c * x ∈ S')
    (hl : ∀ x ∈ S, lp (fin x) = .ok (fin (l x))) (hl' : ∀ y ∈ S', lp' (fin y) = .ok (fin (l' y)))
    (e : ∀ x ∈ S, l' (a + c * x) = l x - Real.log c) : NllFollowsUnits S a c nll nll' := by
  have ev : ∀ {S : Set ℝ} {lp : Num → M Num} {nll : List Num → M Num} {l : ℝ → ℝ}, NllIsNegSum S lp nll →
      (∀ x ∈ S, lp (fin x) = .ok (fin (l x))) → ∀ xs : List ℝ, (∀ x ∈ xs, x ∈ S) → nll (xs.map fin) = .ok (fin (-(xs.map l).sum)) := by
    intro S lp nll l h hl xs hx
    obtain ⟨ls, h1, h2⟩ := h xs hx
    rw [h2]
    have : ls = xs.map l := by
      clear h2
      induction h1 with
      | nil => rfl
      | cons h3 _ ih =>
        rw [List.map_cons, ih fun x hm => hx x (List.mem_cons_of_mem _ hm)]
        rw [hl _ (hx _ List.mem_cons_self)] at h3
        rw [Num.fin.inj (Except.ok.inj h3)]
    rw [this]
  intro xs hx
  refine ⟨_, ev h hl xs hx, ?_⟩
  rw [rescale, ev h' hl' _ (by
    intro y hy
    obtain ⟨x, hm, rfl⟩ := List.mem_map.1 hy
    exact hS x (hx x hm)), List.map_map]
  have : (xs.map (l' ∘ fun x => a + c * x)) = xs.map fun x => -Real.log c + 1 * l x :=
    List.map_congr_left fun x hm => by simp only [Function.comp, e x (hx x hm)]; ring
  rw [this, sum_map_affine]
  congr 2; ring

theorem std (hc : 0 < c) (x : ℝ) : (a + c * x - (a + c * loc)) / (c * s) = (x - loc) / s := by
  rw [show a + c * x - (a + c * loc) = c * (x - loc) by ring, mul_div_mul_left _ _ hc.ne']

theorem std0 (hc : 0 < c) (x : ℝ) : (0 + c * x) / (c * s) = x / s := by rw [zero_add, mul_div_mul_left _ _ hc.ne']

theorem logdiv {f : ℝ} (hc : 0 < c) (hs : 0 < s) (hf : 0 < f) : Real.log (f / (c * s)) = Real.log (f / s) - Real.log c := by
  rw [Real.log_div hf.ne' (mul_pos hc hs).ne', Real.log_div hf.ne' hs.ne', Real.log_mul hc.ne' hs.ne']; ring

/-- C79: `normal.nll` -/
theorem normal_nll (a : ℝ) (hc : 0 < c) (hs : 0 < s) :
    NllFollowsUnits Set.univ a c (normal.nll · (fin loc) (fin s)) (normal.nll · (fin (a + c * loc)) (fin (c * s))) :=
  follows (normal.nll_spec hs) (normal.nll_spec (mul_pos hc hs)) (fun _ _ => trivial) (fun x _ => normal.logpdf_eval hs x)
    (fun y _ => normal.logpdf_eval (mul_pos hc hs) y) fun x _ => by rw [std hc, logdiv hc hs (phi_pos _)]

/-- C79: `hypsecant.nll` -/
theorem hypsecant_nll (a : ℝ) (hc : 0 < c) (hs : 0 < s) :
    NllFollowsUnits Set.univ a c (hypsecant.nll · (fin loc) (fin s)) (hypsecant.nll · (fin (a + c * loc)) (fin (c * s))) :=
  follows (hypsecant.nll_spec hs) (hypsecant.nll_spec (mul_pos hc hs)) (fun _ _ => trivial) (fun x _ => hypsecant.logpdf_eval hs x)
    (fun y _ => hypsecant.logpdf_eval (mul_pos hc hs) y) fun x _ => by rw [std hc, logdiv hc hs (hypsecant.f_pos _)]

/-- C79: `logistic.nll` -/
theorem logistic_nll (a : ℝ) (hc : 0 < c) (hs : 0 < s) :
    NllFollowsUnits Set.univ a c (logistic.nll · (fin loc) (fin s)) (logistic.nll · (fin (a + c * loc)) (fin (c * s))) :=
  follows (logistic.nll_spec hs) (logistic.nll_spec (mul_pos hc hs)) (fun _ _ => trivial)
    (fun x _ => by rw [logistic.logpdf_eval hs, logistic.log_f hs])
    (fun y _ => by rw [logistic.logpdf_eval (mul_pos hc hs), logistic.log_f (mul_pos hc hs)]) fun x _ => by
      rw [std hc, Real.log_mul hc.ne' hs.ne']; ring

/-- C79: `gumbel_max.nll` -/
theorem gumbel_max_nll (a : ℝ) (hc : 0 < c) (hs : 0 < s) :
    NllFollowsUnits Set.univ a c (gumbel_max.nll · (fin loc) (fin s)) (gumbel_max.nll · (fin (a + c * loc)) (fin (c * s))) :=
  follows (gumbel_max.nll_spec hs) (gumbel_max.nll_spec (mul_pos hc hs)) (fun _ _ => trivial)
    (fun x _ => by rw [gumbel_max.logpdf_eval hs, gumbel_max.log_f hs])
    (fun y _ => by rw [gumbel_max.logpdf_eval (mul_pos hc hs), gumbel_max.log_f (mul_pos hc hs)]) fun x _ => by
      rw [std hc, Real.log_mul hc.ne' hs.ne']; ring

/-- C79: `gumbel_min.nll` -/
theorem gumbel_min_nll (a : ℝ) (hc : 0 < c) (hs : 0 < s) :
    NllFollowsUnits Set.univ a c (gumbel_min.nll · (fin loc) (fin s)) (gumbel_min.nll · (fin (a + c * loc)) (fin (c * s))) :=
  follows (gumbel_min.nll_spec hs) (gumbel_min.nll_spec (mul_pos hc hs)) (fun _ _ => trivial)
    (fun x _ => by rw [gumbel_min.logpdf_mirror, gumbel_max.logpdf_eval hs, gumbel_max.log_f hs])
    (fun y _ => by rw [gumbel_min.logpdf_mirror, gumbel_max.logpdf_eval (mul_pos hc hs), gumbel_max.log_f (mul_pos hc hs)]) fun x _ => by
      rw [show (-(a + c * x) - -(a + c * loc)) / (c * s) = (-x - -loc) / s by field_simp; ring, Real.log_mul hc.ne' hs.ne']; ring

/-- C79: `gamma.nll` -/
theorem gamma_nll (hc : 0 < c) {k : ℝ} (hk : 0 < k) (hs : 0 < s) :
    NllFollowsUnits {x | 0 < x} 0 c (gamma.nll · (fin k) (fin s)) (gamma.nll · (fin k) (fin (c * s))) :=
  follows (gamma.nll_spec hk hs) (gamma.nll_spec hk (mul_pos hc hs)) (fun x hx => by simpa using mul_pos hc hx)
    (fun x hx => gamma.logpdf_l hk hs hx) (fun y hy => gamma.logpdf_l hk (mul_pos hc hs) hy) fun x hx => by
      rw [gamma.l, gamma.l, std0 hc, zero_add, Real.log_mul hc.ne' hs.ne', Real.log_mul hc.ne' (ne_of_gt hx)]; ring

/-- C79: `pareto.nll` -/
theorem pareto_nll (a : ℝ) (hc : 0 < c) {b : ℝ} (hb : 0 < b) (hs : 0 < s) :
    NllFollowsUnits {x | loc + s ≤ x} a c (pareto.nll · (fin b) (fin loc) (fin s)) (pareto.nll · (fin b) (fin (a + c * loc)) (fin (c * s))) :=
  follows (pareto.nll_spec hb hs) (pareto.nll_spec hb (mul_pos hc hs))
    (fun x (hx : loc + s ≤ x) => by have := mul_le_mul_of_nonneg_left hx hc.le; simp only [Set.mem_ofPred_eq]; linarith)
    (fun x hx => pareto.logpdf_l hb hs hx) (fun y hy => pareto.logpdf_l hb (mul_pos hc hs) hy) fun x (hx : loc + s ≤ x) => by
      rw [pareto.l, pareto.l, show a + c * x - (a + c * loc) = c * (x - loc) by ring, Real.log_mul hc.ne' hs.ne',
        Real.log_mul hc.ne' (show x - loc ≠ 0 by intro h; linarith)]; ring

theorem weibull_l (hc : 0 < c) (hs : 0 < s) (k : ℝ) {y : ℝ} (hy : 0 < y) :
    weibull_common.l k (c * s) (c * y) = weibull_common.l k s y - Real.log c := by
  rw [weibull_common.l, weibull_common.l, mul_div_mul_left _ _ hc.ne', Real.log_mul hc.ne' hs.ne', Real.log_mul hc.ne' hy.ne']; ring

/-- C79: `weibull_min.nll` -/
theorem weibull_min_nll (a : ℝ) (hc : 0 < c) {k : ℝ} (hk : 0 < k) (hs : 0 < s) :
    NllFollowsUnits {x | loc < x} a c (weibull_min.nll · (fin k) (fin loc) (fin s)) (weibull_min.nll · (fin k) (fin (a + c * loc)) (fin (c * s))) :=
  follows (weibull_min.nll_spec hk hs) (weibull_min.nll_spec hk (mul_pos hc hs))
    (fun x (hx : loc < x) => by have := mul_lt_mul_of_pos_left hx hc; simp only [Set.mem_ofPred_eq]; linarith)
    (fun x hx => weibull_min.logpdf_l hk hs hx) (fun y hy => weibull_min.logpdf_l hk (mul_pos hc hs) hy) fun x (hx : loc < x) => by
      rw [show a + c * x - (a + c * loc) = c * (x - loc) by ring, weibull_l hc hs k (by linarith)]

/-- C79: `weibull_max.nll` -/
theorem weibull_max_nll (a : ℝ) (hc : 0 < c) {k : ℝ} (hk : 0 < k) (hs : 0 < s) :
    NllFollowsUnits {x | x < loc} a c (weibull_max.nll · (fin k) (fin loc) (fin s)) (weibull_max.nll · (fin k) (fin (a + c * loc)) (fin (c * s))) :=
  follows (weibull_max.nll_spec hk hs) (weibull_max.nll_spec hk (mul_pos hc hs))
    (fun x (hx : x < loc) => by have := mul_lt_mul_of_pos_left hx hc; simp only [Set.mem_ofPred_eq]; linarith)
    (fun x hx => weibull_max.logpdf_l hk hs hx) (fun y hy => weibull_max.logpdf_l hk (mul_pos hc hs) hy) fun x (hx : x < loc) => by
      rw [show -(a + c * x) + (a + c * loc) = c * (-x + loc) by ring, weibull_l hc hs k (by linarith)]

/-- C79: `gompertz.nll` -/
theorem gompertz_nll (hc : 0 < c) {k : ℝ} (hk : 0 < k) (hs : 0 < s) :
    NllFollowsUnits {x | 0 ≤ x} 0 c (gompertz.nll · (fin k) (fin s)) (gompertz.nll · (fin k) (fin (c * s))) :=
  follows (gompertz.nll_spec hk hs) (gompertz.nll_spec hk (mul_pos hc hs)) (fun x hx => by simpa using mul_nonneg hc.le hx)
    (fun x hx => gompertz.logpdf_l hk hs hx) (fun y hy => gompertz.logpdf_l hk (mul_pos hc hs) hy) fun x hx => by
      rw [gompertz.l, gompertz.l, std0 hc, Real.log_mul hc.ne' hs.ne']; ring

/-- C79: `nakagami.nll` -/
theorem nakagami_nll (a : ℝ) (hc : 0 < c) {nu : ℝ} (hn : 0 < nu) (hs : 0 < s) :
    NllFollowsUnits (Set.Ioi loc) a c (nakagami.nll · (fin nu) (fin loc) (fin s)) (nakagami.nll · (fin nu) (fin (a + c * loc)) (fin (c * s))) :=
  follows (nakagami.nll_spec hn hs) (nakagami.nll_spec hn (mul_pos hc hs))
    (fun x (hx : loc < x) => by have := mul_lt_mul_of_pos_left hx hc; simp only [Set.mem_Ioi]; linarith)
    (fun x hx => nakagami.logpdf_l hn hs hx) (fun y hy => nakagami.logpdf_l hn (mul_pos hc hs) hy) fun x (hx : loc < x) => by
      rw [nakagami.l, nakagami.l, std hc, Real.log_mul hc.ne' hs.ne']; ring

/-- C79: `betaprime.nll` -/
theorem betaprime_nll (hc : 0 < c) {α β : ℝ} (hα : 0 < α) (hβ : 0 < β) (hs : 0 < s) :
    NllFollowsUnits {x | 0 < x} 0 c (betaprime.nll · (fin α) (fin β) (fin s)) (betaprime.nll · (fin α) (fin β) (fin (c * s))) :=
  follows (betaprime.nll_spec hα hβ hs) (betaprime.nll_spec hα hβ (mul_pos hc hs)) (fun x hx => by simpa using mul_pos hc hx)
    (fun x hx => by rw [betaprime.logpdf_pos hα hβ hs hx, bpD.f_of_nonneg (div_pos hx hs).le])
    (fun y hy => by rw [betaprime.logpdf_pos hα hβ (mul_pos hc hs) hy, bpD.f_of_nonneg (div_pos hy (mul_pos hc hs)).le])
    fun x hx => by rw [std0 hc, logdiv hc hs (bpD.g_pos hα hβ (div_pos hx hs))]

/-- C79: `burr12.nll` -/
theorem burr12_nll (hc : 0 < c) {k d : ℝ} (hk : 0 < k) (hd : 0 < d) (hs : 0 < s) :
    NllFollowsUnits {x | 0 < x} 0 c (burr12.nll · (fin k) (fin d) (fin s)) (burr12.nll · (fin k) (fin d) (fin (c * s))) :=
  follows (burr12.nll_spec hk hd hs) (burr12.nll_spec hk hd (mul_pos hc hs)) (fun x hx => by simpa using mul_pos hc hx)
    (fun x hx => burr12.logpdf_l hk hd hs hx) (fun y hy => burr12.logpdf_l hk hd (mul_pos hc hs) hy) fun x (hx : 0 < x) => by
      simp only [burr12.l, burr12.q, std0 hc, Real.log_mul hc.ne' hs.ne']
      rw [zero_add, Real.log_mul hc.ne' hx.ne']; ring

/-- C79: `benini.nll` -/
theorem benini_nll (hc : 0 < c) {α β : ℝ} (hα : 0 < α) (hβ : 0 < β) (hs : 0 < s) :
    NllFollowsUnits {x | s ≤ x} 0 c (benini.nll · (fin α) (fin β) (fin s)) (benini.nll · (fin α) (fin β) (fin (c * s))) :=
  follows (benini.nll_spec hα hβ hs) (benini.nll_spec hα hβ (mul_pos hc hs))
    (fun x hx => by simpa using mul_le_mul_of_nonneg_left hx hc.le)
    (fun x hx => benini.logpdf_ge hα hβ hs (not_lt.2 hx)) (fun y hy => benini.logpdf_ge hα hβ (mul_pos hc hs) (not_lt.2 hy))
    fun x (hx : s ≤ x) => by
      rw [std0 hc, logdiv hc hs (benini.f_pos hα hβ (not_lt.2 ((one_le_div hs).2 hx)))]

/-- C79: `loggamma.nll` -/
theorem loggamma_nll (hc : 0 < c) {k : ℝ} (hk : 0 < k) (hs : 0 < s) :
    NllFollowsUnits Set.univ 0 c (loggamma.nll · (fin k) (fin s)) (loggamma.nll · (fin k) (fin (c * s))) :=
  follows (loggamma.nll_spec hk hs) (loggamma.nll_spec hk (mul_pos hc hs)) (fun _ _ => trivial)
    (fun x _ => loggamma.logpdf_l hk hs x) (fun y _ => loggamma.logpdf_l hk (mul_pos hc hs) y) fun x _ => by
      simp only [loggamma.l, std0 hc, Real.log_mul hc.ne' hs.ne']; ring

/-- C79: `lognormal.nll`: `mu` becomes `mu + log c`. -/
theorem lognormal_nll (hc : 0 < c) {mu : ℝ} (hs : 0 < s) :
    NllFollowsUnits (Set.Ioi 0) 0 c (lognormal.nll · (fin mu) (fin s)) (lognormal.nll · (fin (mu + Real.log c)) (fin s)) :=
  follows (lognormal.nll_spec hs) (lognormal.nll_spec hs) (fun x hx => by simpa using mul_pos hc hx)
    (fun x hx => lognormal.logpdf_nl hs hx) (fun y hy => lognormal.logpdf_nl hs hy) fun x (hx : 0 < x) => by
      rw [zero_add, Real.log_mul hc.ne' hx.ne', normal.nl, normal.nl, show Real.log c + Real.log x - (mu + Real.log c) = Real.log x - mu by ring]; ring

/-- Non-vacuity: data in the support of each family. -/
example : ∃ xs : List ℝ, xs ≠ [] ∧ ∀ x ∈ xs, x ∈ {x : ℝ | (0:ℝ) + 1 ≤ x} := ⟨[1, 3], by simp, by simp⟩

end Mpsci.affineNll
