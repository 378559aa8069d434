import Verif.Props.Dist.Argus
import Verif.Props.Dist.Benini
import Verif.Props.Dist.Benktander1
import Verif.Props.Dist.Benktander2
import Verif.Props.Dist.Beta
import Verif.Props.Dist.BetaPrime
import Verif.Props.Dist.Burr12
import Verif.Props.Dist.Cauchy
import Verif.Props.Dist.Chi
import Verif.Props.Dist.Chi2
import Verif.Props.Dist.Cosine
import Verif.Props.Dist.Exponweib
import Verif.Props.Dist.F
import Verif.Props.Dist.FoldedNormal
import Verif.Props.Dist.Gamma
import Verif.Props.Dist.GammaGompertz
import Verif.Props.Dist.GenHyperbolic
import Verif.Props.Dist.GenInvGauss
import Verif.Props.Dist.Genexpon
import Verif.Props.Dist.Genextreme
import Verif.Props.Dist.Genpareto
import Verif.Props.Dist.Gompertz
import Verif.Props.Dist.Gumbel
import Verif.Props.Dist.HalfLogistic
import Verif.Props.Dist.Hypsecant
import Verif.Props.Dist.InvChi2
import Verif.Props.Dist.InvGamma
import Verif.Props.Dist.InvGauss
import Verif.Props.Dist.Kumaraswamy
import Verif.Props.Dist.Laplace
import Verif.Props.Dist.Levy
import Verif.Props.Dist.LogGamma
import Verif.Props.Dist.Logistic
import Verif.Props.Dist.Loglogistic
import Verif.Props.Dist.Lognormal
import Verif.Props.Dist.Maxwell
import Verif.Props.Dist.Nakagami
import Verif.Props.Dist.Ncf
import Verif.Props.Dist.Nct
import Verif.Props.Dist.Ncx2
import Verif.Props.Dist.Normal
import Verif.Props.Dist.Pareto
import Verif.Props.Dist.PowerNormal
import Verif.Props.Dist.RelBreitwigner
import Verif.Props.Dist.Rice
import Verif.Props.Dist.Slash
import Verif.Props.Dist.StudentT
import Verif.Props.Dist.Truncnorm
import Verif.Props.Dist.TukeyLambda
import Verif.Props.Dist.Uniform
import Verif.Props.Dist.WeibullMax
import Verif.Props.Dist.WeibullMin
import Verif.Lemmas.Ends

/-!
# `support` returns the ends of the distribution (C70)
-/

namespace Mpsci

open Classical Num Spec Set

/-! ## From the inverse of the cdf -/

theorem argus.isSupport {c s : ℝ} (hc : 0 ≤ c) (hs : 0 < s) :
    IsSupport (fun x => argus.cdf x (fin c) (fin s)) (argus.support (fin c) (fin s)) := by
  obtain ⟨findroot, hfr⟩ := exists_bisectFinder
  exact isSupport_of_search (argus.isCdf hc hs) (argus.inverts_cdf hfr hc hs) (argus.support_spec hc hs) (fun x => by simp)

theorem benini.isSupport {a b s : ℝ} (ha : 0 < a) (hb : 0 < b) (hs : 0 < s) :
    IsSupport (fun x => benini.cdf x (fin a) (fin b) (fin s)) (benini.support (fin a) (fin b) (fin s)) := by
  exact isSupport_of_inverts (benini.isCdf ha hb hs) (benini.inverts_cdf ha hb hs) (benini.support_eq ha hb hs) (fun x => by simp)

theorem benktander1.isSupport {a b : ℝ} (h : benktander1.Valid a b) :
    IsSupport (fun x => benktander1.cdf x (fin a) (fin b)) (benktander1.support (fin a) (fin b)) := by
  obtain ⟨findroot, hfr⟩ := exists_rootFinder
  exact isSupport_of_inverts (benktander1.isCdf h) (benktander1.inverts_cdf hfr h) (benktander1.support_eq h) (fun x => by simp)

theorem benktander2.isSupport {a b : ℝ} (h : benktander2.Valid a b) :
    IsSupport (fun x => benktander2.cdf x (fin a) (fin b)) (benktander2.support (fin a) (fin b)) := by
  exact isSupport_of_inverts (benktander2.isCdf h) (benktander2.inverts_cdf h) (benktander2.support_eq h) (fun x => by simp)

theorem betaprime.isSupport {a b s : ℝ} (ha : 0 < a) (hb : 0 < b) (hs : 0 < s) :
    IsSupport (fun x => betaprime.cdf x (fin a) (fin b) (fin s)) (betaprime.support (fin a) (fin b) (fin s)) := by
  obtain ⟨findroot, hfr⟩ := exists_secantFinder
  exact isSupport_of_search (betaprime.isCdf ha hb hs) (betaprime.inverts_cdf hfr ha hb hs) (lo := 0) (hi := pinf) (by simp [betaprime.support, betaprime.validate_ok ha hb hs]) (fun x => by simp)

theorem burr12.isSupport {c d s : ℝ} (hc : 0 < c) (hd : 0 < d) (hs : 0 < s) :
    IsSupport (fun x => burr12.cdf x (fin c) (fin d) (fin s)) (burr12.support (fin c) (fin d) (fin s)) := by
  exact isSupport_of_inverts (burr12.isCdf hc hd hs) (burr12.inverts_cdf hc hd hs) (burr12.support_eq hc hd hs) (fun x => by simp)

theorem cauchy.isSupport {loc s : ℝ} (hs : 0 < s) :
    IsSupport (fun x => cauchy.cdf x (fin loc) (fin s)) (cauchy.support (fin loc) (fin s)) := by
  exact isSupport_of_inverts (cauchy.isCdf hs) (cauchy.inverts_cdf hs) (cauchy.support_eq hs) (fun x => by simp)

theorem chi2.isSupport {k : ℝ} (hk : 0 < k) :
    IsSupport (fun x => chi2.cdf x (fin k)) (chi2.support (fin k)) := by
  obtain ⟨findroot, hfr⟩ := exists_bisectFinder
  exact isSupport_of_search (chi2.isCdf hk) (chi2.inverts_cdf hfr hk) (chi2.support_spec hk) (fun x => by simp)

theorem cosine.isSupport : IsSupport cosine.cdf (.ok cosine.support) := by
  obtain ⟨findroot, hfr⟩ := exists_newtonFinder
  exact isSupport_of_inverts cosine.isCdf (cosine.inverts_cdf hfr ) (lo := fin (-Real.pi)) (hi := fin Real.pi) (by simp [cosine.support, mp.pi_def]) (fun x => by simp)

theorem exponweib.isSupport {a c s : ℝ} (ha : 0 < a) (hc : 0 < c) (hs : 0 < s) :
    IsSupport (fun x => exponweib.cdf x (fin a) (fin c) (fin s)) (exponweib.support (fin a) (fin c) (fin s)) := by
  exact isSupport_of_inverts (exponweib.isCdf ha hc hs) (exponweib.inverts_cdf ha hc hs) (exponweib.support_eq ha hc hs) (fun x => by simp)

theorem gamma.isSupport {k s : ℝ} (hk : 0 < k) (hs : 0 < s) :
    IsSupport (fun x => gamma.cdf x (fin k) (fin s)) (gamma.support (fin k) (fin s)) := by
  obtain ⟨findroot, hfr⟩ := exists_secantFinder
  exact isSupport_of_search (gamma.isCdf hk hs) (gamma.inverts_cdf hfr hk hs) (lo := 0) (hi := pinf) (by simp [gamma.support, gamma.validate_ok hk hs]) (fun x => by simp)

theorem gamma_gompertz.isSupport {c b s : ℝ} (hc : 0 < c) (hb : 0 < b) (hs : 0 < s) :
    IsSupport (fun x => gamma_gompertz.cdf x (fin c) (fin b) (fin s)) (gamma_gompertz.support (fin c) (fin b) (fin s)) := by
  exact isSupport_of_inverts (gamma_gompertz.isCdf hc hb hs) (gamma_gompertz.inverts_cdf hc hb hs) (gamma_gompertz.support_eq hc hb hs) (fun x => by simp)

theorem genextreme.isSupport {k m s : ℝ} (hs : 0 < s) :
    IsSupport (fun x => genextreme.cdf x (fin k) (fin m) (fin s)) (genextreme.support (fin k) (fin m) (fin s)) := by
  exact isSupport_of_inverts (genextreme.isCdf hs) (genextreme.inverts_cdf hs) (genextreme.support_eq hs) (fun x => by simp only [genextreme.Inner, mem_setOf_eq]; split_ifs <;> simp_all)

theorem genpareto.isSupport {k m s : ℝ} (hs : 0 < s) :
    IsSupport (fun x => genpareto.cdf x (fin k) (fin m) (fin s)) (genpareto.support (fin k) (fin m) (fin s)) := by
  exact isSupport_of_inverts (genpareto.isCdf hs) (genpareto.inverts_cdf hs) (genpareto.support_eq hs) (fun x => by simp only [genpareto.Inner, mem_setOf_eq]; split_ifs with h <;> simp_all)

theorem gompertz.isSupport {c s : ℝ} (hc : 0 < c) (hs : 0 < s) :
    IsSupport (fun x => gompertz.cdf x (fin c) (fin s)) (gompertz.support (fin c) (fin s)) := by
  exact isSupport_of_inverts (gompertz.isCdf hc hs) (gompertz.inverts_cdf hc hs) (gompertz.support_eq hc hs) (fun x => by simp)

theorem gumbel_max.isSupport {loc s : ℝ} (hs : 0 < s) :
    IsSupport (fun x => gumbel_max.cdf x (fin loc) (fin s)) (gumbel_max.support (fin loc) (fin s)) := by
  exact isSupport_of_inverts (gumbel_max.isCdf hs) (gumbel_max.inverts_cdf hs) (gumbel_max.support_eq hs) (fun x => by simp)

theorem gumbel_min.isSupport {loc s : ℝ} (hs : 0 < s) :
    IsSupport (fun x => gumbel_min.cdf x (fin loc) (fin s)) (gumbel_min.support (fin loc) (fin s)) := by
  exact isSupport_of_inverts (gumbel_min.isCdf hs) (gumbel_min.inverts_cdf hs) (gumbel_min.support_eq hs) (fun x => by simp)

theorem hypsecant.isSupport {loc s : ℝ} (hs : 0 < s) :
    IsSupport (fun x => hypsecant.cdf x (fin loc) (fin s)) (hypsecant.support (fin loc) (fin s)) := by
  exact isSupport_of_inverts (hypsecant.isCdf hs) (hypsecant.inverts_cdf hs) (hypsecant.support_eq hs) (fun x => by simp)

theorem laplace.isSupport {loc s : ℝ} (hs : 0 < s) :
    IsSupport (fun x => laplace.cdf x (fin loc) (fin s)) (laplace.support (fin loc) (fin s)) := by
  exact isSupport_of_inverts (laplace.isCdf hs) (laplace.inverts_cdf hs) (laplace.support_eq hs) (fun x => by simp)

theorem logistic.isSupport {loc s : ℝ} (hs : 0 < s) :
    IsSupport (fun x => logistic.cdf x (fin loc) (fin s)) (logistic.support (fin loc) (fin s)) := by
  exact isSupport_of_inverts (logistic.isCdf hs) (logistic.inverts_cdf hs) (logistic.support_eq hs) (fun x => by simp)

theorem normal.isSupport {loc s : ℝ} (hs : 0 < s) :
    IsSupport (fun x => normal.cdf x (fin loc) (fin s)) (normal.support (fin loc) (fin s)) := by
  exact isSupport_of_inverts (normal.isCdf hs) (normal.inverts_cdf hs) (normal.support_eq hs) (fun x => by simp)

theorem half_logistic.isSupport {loc s : ℝ} (hs : 0 < s) :
    IsSupport (fun x => half_logistic.cdf x (fin loc) (fin s)) (half_logistic.support (fin loc) (fin s)) := by
  exact isSupport_of_inverts (half_logistic.isCdf hs) (half_logistic.inverts_cdf hs) (half_logistic.support_eq hs) (fun x => by simp)

theorem kumaraswamy.isSupport {a b : ℝ} (ha : 0 < a) (hb : 0 < b) :
    IsSupport (fun x => kumaraswamy.cdf x (fin a) (fin b)) (kumaraswamy.support (fin a) (fin b)) := by
  exact isSupport_of_inverts (kumaraswamy.isCdf ha hb) (kumaraswamy.inverts_cdf ha hb) (kumaraswamy.support_eq _ _) (fun x => by simp)

theorem loggamma.isSupport {k s : ℝ} (hk : 0 < k) (hs : 0 < s) :
    IsSupport (fun x => loggamma.cdf x (fin k) (fin s)) (loggamma.support (fin k) (fin s)) := by
  obtain ⟨findroot, hfr⟩ := exists_secantFinder
  exact isSupport_of_search (loggamma.isCdf hk hs) (loggamma.inverts_cdf hfr hk hs) (loggamma.support_spec hk hs) (fun x => by simp)

theorem loglogistic.isSupport {b s : ℝ} (hb : 0 < b) (hs : 0 < s) :
    IsSupport (fun x => loglogistic.cdf x (fin b) (fin s)) (loglogistic.support (fin b) (fin s)) := by
  exact isSupport_of_inverts (loglogistic.isCdf hb hs) (loglogistic.inverts_cdf hb hs) (loglogistic.support_eq hb hs) (fun x => by simp)

theorem lognormal.isSupport {m s : ℝ} (hs : 0 < s) :
    IsSupport (fun x => lognormal.cdf x (fin m) (fin s)) (lognormal.support (fin m) (fin s)) := by
  exact isSupport_of_inverts (lognormal.isCdf hs) (lognormal.inverts_cdf hs) (lognormal.support_eq hs) (fun x => by simp)

theorem maxwell.isSupport {loc s : ℝ} (hs : 0 < s) :
    IsSupport (fun x => maxwell.cdf x (fin loc) (fin s)) (maxwell.support (fin loc) (fin s)) := by
  obtain ⟨findroot, hfr⟩ := exists_secantFinder
  exact isSupport_of_search (maxwell.isCdf hs) (maxwell.inverts_cdf (newton := fun _ => pure) hfr hs) (maxwell.support_spec hs) (fun x => by simp)

theorem nakagami.isSupport {nu loc s : ℝ} (hnu : 0 < nu) (hs : 0 < s) :
    IsSupport (fun x => nakagami.cdf x (fin nu) (fin loc) (fin s)) (nakagami.support (fin nu) (fin loc) (fin s)) := by
  obtain ⟨findroot, hfr⟩ := exists_secantFinder
  exact isSupport_of_search (nakagami.isCdf hnu hs) (nakagami.inverts_cdf hfr hnu hs) (nakagami.support_spec hnu hs) (fun x => by simp)

theorem pareto.isSupport {b loc s : ℝ} (hb : 0 < b) (hs : 0 < s) :
    IsSupport (fun x => pareto.cdf x (fin b) (fin loc) (fin s)) (pareto.support (fin b) (fin loc) (fin s)) := by
  exact isSupport_of_inverts (pareto.isCdf hb hs) (pareto.inverts_cdf hb hs) (pareto.support_eq hb hs) (fun x => by simp)

theorem power_normal.isSupport {c loc s : ℝ} (hc : 0 < c) (hs : 0 < s) :
    IsSupport (fun x => power_normal.cdf x (fin c) (fin loc) (fin s)) (power_normal.support (fin c) (fin loc) (fin s)) := by
  exact isSupport_of_inverts (power_normal.isCdf hc hs) (power_normal.inverts_cdf hc hs) (power_normal.support_eq hc hs) (fun x => by simp)

theorem rel_breitwigner.isSupport {r s : ℝ} (hr : 0 < r) (hs : 0 < s) :
    IsSupport (fun x => rel_breitwigner.cdf x (fin r) (fin s)) (rel_breitwigner.support (fin r) (fin s)) := by
  obtain ⟨findroot, hfr⟩ := exists_secantFinder
  exact isSupport_of_search (rel_breitwigner.isCdf hr hs) (rel_breitwigner.inverts_cdf hfr hr hs) (rel_breitwigner.support_spec hr hs) (fun x => by simp)

theorem slash.isSupport : IsSupport slash.cdf (.ok slash.support) := by
  obtain ⟨findroot, hfr⟩ := exists_newtonFinder
  exact isSupport_of_inverts slash.isCdf (slash.inverts_cdf hfr ) (lo := ninf) (hi := pinf) (by simp [slash.support]) (fun x => by simp)

theorem uniform.isSupport {a b : ℝ} (h : a < b) :
    IsSupport (fun x => uniform.cdf x (fin a) (fin b)) (uniform.support (fin a) (fin b)) := by
  exact isSupport_of_inverts (uniform.isCdf h) (uniform.inverts_cdf h) (uniform.support_eq h) (fun x => by simp)

theorem weibull_min.isSupport {k loc s : ℝ} (hk : 0 < k) (hs : 0 < s) :
    IsSupport (fun x => weibull_min.cdf x (fin k) (fin loc) (fin s)) (weibull_min.support (fin k) (fin loc) (fin s)) := by
  exact isSupport_of_inverts (weibull_min.isCdf hk hs) (weibull_min.inverts_cdf hk hs) (weibull_min.support_eq hk hs) (fun x => by simp)

theorem weibull_max.isSupport {k loc s : ℝ} (hk : 0 < k) (hs : 0 < s) :
    IsSupport (fun x => weibull_max.cdf x (fin k) (fin loc) (fin s)) (weibull_max.support (fin k) (fin loc) (fin s)) := by
  exact isSupport_of_inverts (weibull_max.isCdf hk hs) (weibull_max.inverts_cdf hk hs) (weibull_max.support_eq hk hs) (fun x => by simp)

theorem truncnorm.isSupport {A B : Num} (h : A < B) : IsSupport (fun x => truncnorm.cdf x A B) (truncnorm.support A B) :=
  isSupport_of_inverts (truncnorm.isCdf h) (truncnorm.inverts_cdf h) (truncnorm.support_eq h) (fun _ => Iff.rfl)

/-- `levy.support` takes a first argument `p`, which must be a probability (`levy.support_fails`). -/
theorem levy.isSupport_partial {p mu s : ℝ} (h0 : 0 ≤ p) (h1 : p ≤ 1) (hs : 0 < s) :
    IsSupport (fun x => levy.cdf x (fin mu) (fin s)) (levy.support (fin p) (fin mu) (fin s)) :=
  isSupport_of_inverts (levy.isCdf hs) (levy.inverts_cdf hs) (lo := fin mu) (hi := pinf)
    (by simp [levy.support, common.validateP_ok h0 h1, common.validateLocScale_ok _ hs]) (fun x => by simp)

/-- For `lam < 0` the cdf fails in the tails (`tukeylambda.cdf_fails_right`). -/
theorem tukeylambda.isSupport_partial {l m s eps : ℝ} {findroot : (Num → M Num) → Num → Num → M Num} (hfr : BisectFinder findroot)
    (he : 0 < eps) (hl : 0 ≤ l) (hs : 0 < s) :
    IsSupport (fun x => tukeylambda.cdf findroot (fin eps) x (fin l) (fin m) (fin s)) (tukeylambda.support (fin l) (fin m) (fin s)) := by
  rcases hl.eq_or_lt with rfl | hl'
  · exact isSupport_of_inverts (tukeylambda.isCdf hfr he hl hs) (tukeylambda.inverts_cdf hfr he hl hs)
      (tukeylambda.support_nonpos le_rfl hs).1 (fun x => by simp [tkD.S])
  · refine isSupport_of_inverts (tukeylambda.isCdf hfr he hl hs) (tukeylambda.inverts_cdf hfr he hl hs)
      (tukeylambda.support_pos hl' hs).1 (fun x => ?_)
    have e : s / l = 1 / l * s := by ring
    simp only [tkD.S, if_pos hl', mem_setOf_eq, mem_Ioo, lt_div_iff₀ hs, div_lt_iff₀ hs, fin_lt, e]
    constructor <;> rintro ⟨h1, h2⟩ <;> constructor <;> linarith

/-- `genexpon.cdf` raises to the left of `loc` (`genexpon.raises_left`), so that `IsSupport` fails; to the right its values
are strictly between 0 and 1. -/
theorem genexpon.isSupport_partial {a b c loc s : ℝ} (h : genexpon.Valid a b c s) :
    genexpon.support (fin a) (fin b) (fin c) (fin loc) (fin s) = .ok (fin loc, pinf) ∧
    (∀ x, loc < x → ∃ p : ℝ, 0 < p ∧ p < 1 ∧ genexpon.cdf (fin x) (fin a) (fin b) (fin c) (fin loc) (fin s) = .ok (fin p)) ∧
    ¬ IsSupport (fun x => genexpon.cdf x (fin a) (fin b) (fin c) (fin loc) (fin s))
      (genexpon.support (fin a) (fin b) (fin c) (fin loc) (fin s)) := by
  refine ⟨genexpon.support_eq h, fun x hx => ?_, ?_⟩
  · obtain ⟨p, h0, h1, hp, -⟩ := (genexpon.inverts_cdf h).2 x hx
    exact ⟨p, h0, h1, hp⟩
  · rintro ⟨lo, hi, F, -, hF, -⟩
    have := hF (loc - 1)
    have h2 := (genexpon.raises_left (a := a) (b := b) (c := c) (s := s) (show loc - 1 < loc by linarith)).1
    simp_all

/-! ## From the density -/

theorem beta.isSupport {a b : ℝ} (ha : 0 < a) (hb : 0 < b) :
    IsSupport (fun x => beta.cdf x (fin a) (fin b)) (beta.support (fin a) (fin b)) :=
  isSupport_of_density (beta.isDensity ha hb) beta.E_finite.countable (by simp)
    (fun x h0 h1 hE => by
      simp only [zero_def, one_def, fin_lt] at h0 h1
      exact ⟨_, by rw [betaD.f, if_neg (by linarith), if_neg (by linarith)]; exact betaD.g_pos ha hb h0 h1, beta.pdf_eval ha hb hE⟩)
    (beta.support_spec ha hb) (fun x hx => by simpa using hx)

theorem chi.isSupport {k : ℝ} (hk : 0 < k) : IsSupport (fun x => chi.cdf x (fin k)) (chi.support (fin k)) :=
  isSupport_of_density (chi.isDensity (E := {0}) hk (finite_singleton 0) (fun _ => rfl)) (countable_singleton 0) (by simp)
    (fun x h0 _ _ => by
      simp only [zero_def, fin_lt] at h0
      exact ⟨_, chi.f_pos hk h0, chi.pdf_eval hk x (Or.inr h0.ne')⟩)
    (chi.support_spec hk) (fun x hx => by simpa using (mem_Ioi.1 hx).le)

theorem fdist.isSupport {k l : ℝ} (hk : 0 < k) (hl : 0 < l) :
    IsSupport (fun x => fdist.cdf x (fin k) (fin l)) (fdist.support (fin k) (fin l)) :=
  isSupport_of_density (fdist.isDensity hk hl) fdist.E_finite.countable (lo := 0) (hi := pinf) (by simp)
    (fun x h0 _ _ => by
      simp only [zero_def, fin_lt] at h0
      exact ⟨_, fdist.f_pos hk hl h0, fdist.pdf_pos hk hl h0⟩)
    (by simp [fdist.support, fdist.validate_ok hk hl]) (fun x hx => by simpa using hx)

theorem folded_normal.isSupport {m s : ℝ} (hs : 0 < s) :
    IsSupport (fun x => folded_normal.cdf x (fin m) (fin s)) (folded_normal.support (fin m) (fin s)) :=
  isSupport_of_density (folded_normal.isDensity hs) countable_empty (by simp)
    (fun x h0 _ _ => by
      simp only [zero_def, fin_lt] at h0
      exact ⟨_, folded_normal.f_pos hs h0.le, folded_normal.pdf_eval hs x⟩)
    (folded_normal.support_eq hs) (fun x hx => by simpa using hx)

theorem genhyperbolic.isSupport {p a b loc s : ℝ} (h : |b| < a) (hs : 0 < s) :
    IsSupport (fun x => genhyperbolic.cdf x (fin p) (fin a) (fin b) (fin loc) (fin s))
      (genhyperbolic.support (fin p) (fin a) (fin b) (fin loc) (fin s)) :=
  isSupport_of_density (genhyperbolic.isDensity h hs) countable_empty (by simp)
    (fun x _ _ _ => ⟨_, div_pos (gh.f_pos h _) hs, genhyperbolic.pdf_eval h hs x⟩)
    (genhyperbolic.support_spec h hs) (fun x _ => by simp)

theorem geninvgauss.isSupport {p b loc s : ℝ} (hb : 0 < b) (hs : 0 < s) :
    IsSupport (fun x => geninvgauss.cdf x (fin p) (fin b) (fin loc) (fin s))
      (geninvgauss.support (fin p) (fin b) (fin loc) (fin s)) :=
  isSupport_of_density (geninvgauss.isDensity hb hs) countable_empty (by simp)
    (fun x h0 _ _ => by
      simp only [fin_lt] at h0
      exact ⟨_, div_pos (gig.f_pos hb (div_pos (sub_pos.2 h0) hs)) hs, geninvgauss.pdf_eval hb hs x⟩)
    (geninvgauss.support_spec hb hs) (fun x hx => by simpa using (mem_Ioi.1 hx).le)

theorem invchi2.isSupport {nu : ℝ} (hn : 0 < nu) : IsSupport (fun x => invchi2.cdf x (fin nu)) (invchi2.support (fin nu)) :=
  isSupport_of_density (invchi2.isDensity hn) countable_empty (by simp)
    (fun x h0 _ _ => by
      simp only [fin_lt] at h0
      exact ⟨_, invchi2.g_pos hn h0, invchi2.pdf_eval hn x⟩)
    (invchi2.support_spec hn) (fun x hx => by simpa using (mem_Ioi.1 hx).le)

theorem invgamma.isSupport {a loc s : ℝ} (ha : 0 < a) (hs : 0 < s) :
    IsSupport (fun x => invgamma.cdf x (fin a) (fin loc) (fin s)) (invgamma.support (fin a) (fin loc) (fin s)) :=
  isSupport_of_density (invgamma.isDensity ha hs) countable_empty (by simp)
    (fun x h0 _ _ => by
      simp only [fin_lt] at h0
      exact ⟨_, div_pos (invgammaD.f_pos ha (div_pos (sub_pos.2 h0) hs)) hs, invgamma.pdf_eval ha hs x⟩)
    (invgamma.support_spec ha hs) (fun x hx => by simpa using (mem_Ioi.1 hx).le)

theorem invgauss.isSupport {m loc s : ℝ} (hm : 0 < m) (hs : 0 < s) :
    IsSupport (fun x => invgauss.cdf x (fin m) (fin loc) (fin s)) (invgauss.support (fin m) (fin loc) (fin s)) :=
  isSupport_of_density (invgauss.isDensity hm hs) countable_empty (by simp)
    (fun x h0 _ _ => by
      simp only [fin_lt] at h0
      exact ⟨_, div_pos (igD.f_pos (div_pos (sub_pos.2 h0) hs)) hs, invgauss.pdf_eval hm hs x⟩)
    (invgauss.support_spec hm hs) (fun x hx => by simpa using (mem_Ioi.1 hx).le)

theorem ncx2.isSupport {k l : ℝ} (hk : 0 < k) (hl : 0 < l) :
    IsSupport (fun x => ncx2.cdf x (fin k) (fin l)) (ncx2.support (fin k) (fin l)) :=
  isSupport_of_density (ncx2.isDensity hk hl) ncx2.E_finite.countable (by simp)
    (fun x h0 _ _ => (ncx2.support_spec hk hl).2.2 x (by simpa using h0))
    (ncx2.support_spec hk hl).1 (fun x hx => by simpa using hx)

theorem ncf.isSupport {n d c : ℝ} (hn : 0 < n) (hd : 0 < d) (hc : 0 < c) :
    IsSupport (fun x => ncf.cdf x (fin n) (fin d) (fin c)) (ncf.support (fin n) (fin d) (fin c)) :=
  isSupport_of_density (ncf.isDensity hn hd hc) ncf.E_finite.countable (by simp)
    (fun x h0 _ _ => (ncf.support_spec hn hd hc).2.2 x (by simpa using h0))
    (ncf.support_spec hn hd hc).1 (fun x hx => by simpa using hx)

theorem rice.isSupport {ν s : ℝ} (hν : 0 ≤ ν) (hs : 0 < s) :
    IsSupport (fun x => rice.cdf x (fin ν) (fin s)) (rice.support (fin ν) (fin s)) :=
  isSupport_of_density (rice.isDensity hν hs) countable_empty (by simp)
    (fun x h0 _ _ => (rice.support_spec hν hs).2.2 x (by simpa using h0))
    (rice.support_spec hν hs).1 (fun x hx => by simpa using hx)

theorem studentt.isSupport {v : ℝ} (hv : 0 < v) : IsSupport (fun x => studentt.cdf x (fin v)) (studentt.support (fin v)) :=
  isSupport_of_density (studentt.isDensity hv) countable_empty (lo := ninf) (hi := pinf) (by simp)
    (fun x _ _ _ => ⟨_, tD.f_pos hv x, studentt.pdf_eval hv x⟩)
    (by simp [studentt.support, studentt.validate_ok hv]) (fun x _ => by simp)

/-- `nct` has no model of its cdf; its density is positive on the whole line, which is what `support` returns. -/
theorem nct.isSupport_partial {v m : ℝ} (hv : 0 < v) (hm : m ≠ 0) :
    nct.support (fin v) (fin m) = .ok (ninf, pinf) ∧
    ∀ x : ℝ, ∃ y : ℝ, 0 < y ∧ nct.pdf (fin x) (fin v) (fin m) = .ok (fin y) :=
  ⟨nct.support_spec _ _, fun x => ⟨_, nctD.f_pos hv x, nct.pdf_eval hv hm x⟩⟩

/-! Test: the hypotheses can be met, and the ends are what one expects. -/
example : IsSupport (fun x => weibull_max.cdf x (fin 2) (fin 5) (fin 3)) (.ok (ninf, fin 5)) := by
  have := weibull_max.isSupport (k := 2) (loc := 5) (s := 3) (by norm_num) (by norm_num)
  rwa [weibull_max.support_eq (by norm_num) (by norm_num)] at this

/-- `IsSupport` rejects an interval that is too wide. -/
example : ¬ IsSupport (fun x => uniform.cdf x (fin 0) (fin 1)) (.ok (fin 0, fin 2)) := by
  rintro ⟨lo, hi, F, h, hF, hx⟩
  obtain ⟨lo', hi', F', h', hF', hx'⟩ := uniform.isSupport (a := 0) (b := 1) one_pos
  rw [uniform.support_eq one_pos] at h'
  obtain ⟨rfl, rfl⟩ := Prod.mk.inj (Except.ok.inj h)
  obtain ⟨rfl, rfl⟩ := Prod.mk.inj (Except.ok.inj h')
  have e : F = F' := funext fun x => fin_inj.1 (Except.ok.inj ((hF x).symm.trans (hF' x)))
  subst e
  have h1 := (hx (3 / 2)).2
  have h2 := (hx' (3 / 2)).2
  rw [h1] at h2
  simp only [fin_lt] at h2
  norm_num at h2

end Mpsci
