import Verif.Lemmas.Order
import Verif.Model.Fit.LocScale
import Verif.Model.Fit.Gamma
import Verif.Model.Fit.Beta
import Verif.Model.Fit.Positive
import Verif.Model.Fit.Nakagami
import Verif.Model.Fit.BetaPrime
import Verif.Model.Fit.LogGamma
import Verif.Model.Fit.Hypsecant
import Verif.Model.Dist.Lognormal
import Verif.Model.Dist.Genpareto
import Verif.Model.Dist.Benktander1
import Verif.Model.Dist.Benktander2
import Verif.Model.Stats.Boxcox
import Verif.Model.Stats.Goftests
import Verif.Model.Stats.Pearsonr
import Verif.Model.Fit.Counts
import Verif.Model.Fit.Logseries
import Verif.Model.Fit.NegBinomial
import Verif.Model.Fit.BetaBinomial

/-! C77, the fits: the result does not depend on the order of the data.  `mp.findroot` is a parameter of the model; the theorems
assume of it that it sees the function only through the values that it returns. -/

namespace Mpsci.order

open Classical Num Spec common

set_option linter.unusedSimpArgs false
set_option linter.unusedTactic false
set_option linter.unreachableTactic false
set_option linter.unusedVariables false

theorem normal_nll (mu sigma : Num) : OrderFree (normal.nll · mu sigma) := by
  refine OrderFree.of fun x y h => ?_
  simp only [normal.nll, fsum_perm h, fsum_map_perm h, len_perm h, mean_perm h, h.length_eq]
  order_free h

theorem lognormal_nll (mu sigma : Num) : OrderFree (lognormal.nll · mu sigma) := by
  refine OrderFree.of fun x y h => ?_
  simp only [lognormal.nll, fsum_perm h, fsum_map_perm h, len_perm h, mean_perm h, h.length_eq]
  order_free h

theorem hypsecant_nll (loc scale : Num) : OrderFree (hypsecant.nll · loc scale) := by
  refine OrderFree.of fun x y h => ?_
  simp only [hypsecant.nll, fsum_perm h, fsum_map_perm h, len_perm h, mean_perm h, h.length_eq]
  order_free h

theorem logistic_nll (loc scale : Num) : OrderFree (logistic.nll · loc scale) := by
  refine OrderFree.of fun x y h => ?_
  simp only [logistic.nll, fsum_perm h, fsum_map_perm h, len_perm h, mean_perm h, h.length_eq]
  order_free h

theorem gumbel_max_nll (loc scale : Num) : OrderFree (gumbel_max.nll · loc scale) := by
  refine OrderFree.of fun x y h => ?_
  simp only [gumbel_max.nll, fsum_perm h, fsum_map_perm h, len_perm h, mean_perm h, h.length_eq]
  order_free h

theorem gumbel_min_nll (loc scale : Num) : OrderFree (gumbel_min.nll · loc scale) := by
  refine OrderFree.of fun x y h => ?_
  simp only [gumbel_min.nll, fsum_perm h, fsum_map_perm h, len_perm h, mean_perm h, h.length_eq]
  order_free h

theorem gamma_nll (k scale : Num) : OrderFree (gamma.nll · k scale) := by
  refine OrderFree.of fun x y h => ?_
  simp only [gamma.nll, fsum_perm h, fsum_map_perm h, len_perm h, mean_perm h, h.length_eq]
  order_free h

theorem beta_nll (a b : Num) : OrderFree (beta.nll · a b) := by
  refine OrderFree.of fun x y h => ?_
  simp only [beta.nll, fsum_perm h, fsum_map_perm h, len_perm h, mean_perm h, h.length_eq]
  order_free h

theorem pareto_nll (b loc scale : Num) : OrderFree (pareto.nll · b loc scale) := by
  refine OrderFree.of fun x y h => ?_
  simp only [pareto.nll, fsum_perm h, fsum_map_perm h, len_perm h, mean_perm h, h.length_eq]
  order_free h

theorem gompertz_nll (c scale : Num) : OrderFree (gompertz.nll · c scale) := by
  refine OrderFree.of fun x y h => ?_
  simp only [gompertz.nll, fsum_perm h, fsum_map_perm h, len_perm h, mean_perm h, h.length_eq]
  order_free h

theorem kumaraswamy_nll (a b : Num) : OrderFree (kumaraswamy.nll · a b) := by
  refine OrderFree.of fun x y h => ?_
  simp only [kumaraswamy.nll, fsum_perm h, fsum_map_perm h, len_perm h, mean_perm h, h.length_eq]
  order_free h

theorem burr12_nll (c d scale : Num) : OrderFree (burr12.nll · c d scale) := by
  refine OrderFree.of fun x y h => ?_
  simp only [burr12.nll, fsum_perm h, fsum_map_perm h, len_perm h, mean_perm h, h.length_eq]
  order_free h

theorem weibull_min_nll (k loc scale : Num) : OrderFree (weibull_min.nll · k loc scale) := by
  refine OrderFree.of fun x y h => ?_
  simp only [weibull_min.nll, fsum_perm h, fsum_map_perm h, len_perm h, mean_perm h, h.length_eq]
  order_free h

theorem weibull_max_nll (k loc scale : Num) : OrderFree (weibull_max.nll · k loc scale) := by
  refine OrderFree.of fun x y h => ?_
  simp only [weibull_max.nll, fsum_perm h, fsum_map_perm h, len_perm h, mean_perm h, h.length_eq]
  order_free h

theorem benini_nll (a b scale : Num) : OrderFree (benini.nll · a b scale) := by
  refine OrderFree.of fun x y h => ?_
  simp only [benini.nll, fsum_perm h, fsum_map_perm h, len_perm h, mean_perm h, h.length_eq]
  order_free h

theorem genpareto_nll (xi mu sigma : Num) : OrderFree (genpareto.nll · xi mu sigma) := by
  refine OrderFree.of fun x y h => ?_
  simp only [genpareto.nll, fsum_perm h, fsum_map_perm h, len_perm h, mean_perm h, h.length_eq]
  order_free h

theorem benktander1_nll (a b : Num) : OrderFree (benktander1.nll · a b) := by
  refine OrderFree.of fun x y h => ?_
  simp only [benktander1.nll, fsum_perm h, fsum_map_perm h, len_perm h, mean_perm h, h.length_eq]
  order_free h

theorem benktander2_nll (a b : Num) : OrderFree (benktander2.nll · a b) := by
  refine OrderFree.of fun x y h => ?_
  simp only [benktander2.nll, fsum_perm h, fsum_map_perm h, len_perm h, mean_perm h, h.length_eq]
  order_free h

theorem nakagami_nll (nu loc scale : Num) : OrderFree (nakagami.nll · nu loc scale) := by
  refine OrderFree.of fun x y h => ?_
  simp only [nakagami.nll, fsum_perm h, fsum_map_perm h, len_perm h, mean_perm h, h.length_eq]
  order_free h

theorem betaprime_nll (a b scale : Num) : OrderFree (betaprime.nll · a b scale) := by
  refine OrderFree.of fun x y h => ?_
  simp only [betaprime.nll, fsum_perm h, fsum_map_perm h, len_perm h, mean_perm h, h.length_eq]
  order_free h

theorem loggamma_nll (k theta : Num) : OrderFree (loggamma.nll · k theta) := by
  refine OrderFree.of fun x y h => ?_
  simp only [loggamma.nll, fsum_perm h, fsum_map_perm h, len_perm h, mean_perm h, h.length_eq]
  order_free h

theorem laplace_mom : OrderFree laplace.mom := by
  refine OrderFree.of fun x y h => ?_
  simp only [laplace.mom, fsum_perm h, fsum_map_perm h, len_perm h, mean_perm h, mean_map_perm h, var_perm h, h.length_eq]
  order_free h

theorem uniform_mom : OrderFree uniform.mom := by
  refine OrderFree.of fun x y h => ?_
  simp only [uniform.mom, fsum_perm h, fsum_map_perm h, len_perm h, mean_perm h, mean_map_perm h, var_perm h, h.length_eq]
  order_free h

theorem logistic_mom : OrderFree logistic.mom := by
  refine OrderFree.of fun x y h => ?_
  simp only [logistic.mom, fsum_perm h, fsum_map_perm h, len_perm h, mean_perm h, mean_map_perm h, var_perm h, h.length_eq]
  order_free h

theorem gumbel_max_mom : OrderFree gumbel_max.mom := by
  refine OrderFree.of fun x y h => ?_
  simp only [gumbel_max.mom, fsum_perm h, fsum_map_perm h, len_perm h, mean_perm h, mean_map_perm h, var_perm h, h.length_eq]
  order_free h

theorem gumbel_min_mom : OrderFree gumbel_min.mom := by
  refine OrderFree.of fun x y h => ?_
  simp only [gumbel_min.mom, fsum_perm h, fsum_map_perm h, len_perm h, mean_perm h, mean_map_perm h, var_perm h, h.length_eq]
  order_free h

theorem gamma_mom : OrderFree gamma.mom := by
  refine OrderFree.of fun x y h => ?_
  simp only [gamma.mom, fsum_perm h, fsum_map_perm h, len_perm h, mean_perm h, mean_map_perm h, var_perm h, h.length_eq]
  order_free h

theorem beta_mom : OrderFree beta.mom := by
  refine OrderFree.of fun x y h => ?_
  simp only [beta.mom, fsum_perm h, fsum_map_perm h, len_perm h, mean_perm h, mean_map_perm h, var_perm h, h.length_eq]
  order_free h

theorem lognormal_mom : OrderFree lognormal.mom := by
  refine OrderFree.of fun x y h => ?_
  simp only [lognormal.mom, fsum_perm h, fsum_map_perm h, len_perm h, mean_perm h, mean_map_perm h, var_perm h, h.length_eq]
  order_free h

theorem normal_mle : OrderFree normal.mle := by
  refine OrderFree.of fun x y h => ?_
  simp only [normal.mle, fsum_perm h, fsum_map_perm h, len_perm h, mean_perm h, mean_map_perm h, var_perm h, h.length_eq]
  order_free h

theorem lognormal_mle : OrderFree lognormal.mle := by
  refine OrderFree.of fun x y h => ?_
  simp only [lognormal.mle, fsum_perm h, fsum_map_perm h, len_perm h, mean_perm h, mean_map_perm h, var_perm h, h.length_eq]
  order_free h

theorem laplace_mle (loc scale : Option Num) : OrderFree (laplace.mle · loc scale) := by
  refine OrderFree.ofSorted fun x y h h1 h2 h3 => ?_
  simp only [laplace.mle, laplace.mleLoc, h3, mean_map_perm h]
  order_free h

theorem uniform_mle : OrderFree uniform.mle := by
  refine OrderFree.ofSorted fun x y h h1 h2 h3 => ?_
  simp only [uniform.mle, h1, h2]
  order_free h

theorem logistic_mle {findroot2} (h2 : SeesValues2 findroot2) : OrderFree (logistic.mle findroot2) := by
  refine OrderFree.of fun x y h => ?_
  simp only [logistic.mle, logistic.mom, logistic.mleLocEq, logistic.mleScaleEq]
  order_simp h
  order_free h

theorem gamma_mle (findroot) (k scale : Option Num) (steps : ℕ) : OrderFree (gamma.mle findroot · k scale steps) := by
  refine OrderFree.of fun x y h => ?_
  simp only [gamma.mle]
  order_simp h
  order_free h

theorem beta_mle (findroot1 findroot2) (a b : Param) : OrderFree (beta.mle findroot1 findroot2 · a b) := by
  refine OrderFree.of fun x y h => ?_
  have h' := h.map fun t => 1 - t
  cases a <;> cases b <;> simp only [beta.mle, beta.mleOne, beta.mleBoth] <;> order_simp h <;>
    order_free h <;> order_simp h' <;> order_free h

theorem hypsecant_mle {findroot1 findroot2} (h1 : SeesValues findroot1) (h2 : SeesValues2 findroot2) (loc scale : Param) :
    OrderFree (hypsecant.mle findroot1 findroot2 · loc scale) := by
  refine OrderFree.of fun x y h => ?_
  cases loc <;> cases scale <;>
    simp only [hypsecant.mle, hypsecant.mleBoth, hypsecant.mleLoc, hypsecant.mleScale, hypsecant.startLoc, hypsecant.eq1, hypsecant.eq2] <;>
    order_simp h <;> order_free h

theorem pareto_mle {findroot1 findroot2} (hf1 : SeesValues findroot1) (hf2 : SeesValues2 findroot2) (b loc scale : Param) :
    OrderFree (pareto.mle findroot1 findroot2 · b loc scale) := by
  refine OrderFree.ofSorted fun x y h h1 h2 h3 => ?_
  cases b <;> cases loc <;> cases scale <;> simp only [pareto.mle, pareto.mle.freeB, pareto.mleEqns, pareto.mleEqn] <;>
    order_simp h <;> (try simp only [h1]) <;> order_free h <;> (try simp only [h1]) <;> order_free h

theorem gompertz_mle {findroot} (h1 : SeesValues findroot) (c : Option Num) (scale : Param) :
    OrderFree (gompertz.mle findroot · c scale) := by
  refine OrderFree.of fun x y h => ?_
  cases c <;> cases scale <;>
    simp only [gompertz.mle, gompertz.cFor, gompertz.mleScaleEqn, gompertz.mleScaleEqnFixed] <;> order_simp h <;> order_free h

theorem kumaraswamy_mle {findroot} (h1 : SeesValues findroot) (a : Param) (b : Option Num) :
    OrderFree (kumaraswamy.mle findroot · a b) := by
  refine OrderFree.of fun x y h => ?_
  cases a <;> cases b <;>
    simp only [kumaraswamy.mle, kumaraswamy.mleS2, kumaraswamy.mleS3, kumaraswamy.mleAEqn, kumaraswamy.mleAEqnBFixed] <;>
    order_simp h <;> order_free h

theorem nakagami_mle (findroot) (nu loc scale : Option Num) : OrderFree (nakagami.mle findroot · nu loc scale) := by
  refine OrderFree.of fun x y h => ?_
  cases loc with
  | none => cases nu <;> exact Imp.refl _
  | some loc =>
    have h' := h.map fun t => t - loc
    cases nu <;> cases scale <;>
      simp only [nakagami.mle, nakagami.mleScale, nakagami.mleNu, nakagami.mleR, nakagami.meanLog2] <;>
      order_simp h' <;> order_free h <;> order_simp h' <;> order_free h'

theorem betaprime_mle {findroot1 findroot2 findroot3} (h1 : SeesValues findroot1) (h2 : SeesValues2 findroot2)
    (h3 : SeesValues3 findroot3) (a b scale : Param) : OrderFree (betaprime.mle findroot1 findroot2 findroot3 · a b scale) := by
  refine OrderFree.of fun x y h => ?_
  cases a <;> cases b <;> cases scale <;>
    simp only [betaprime.mle, betaprime.mleAll, betaprime.mleAB, betaprime.mleB, betaprime.mleA, betaprime.mleS, betaprime.mleBS,
      betaprime.mleAS, betaprime.meanLog, betaprime.meanLog1p, betaprime.meanRatio] <;>
    order_simp h <;> order_free h

theorem loggamma_mle (findroot) {findroot1 findroot2} (h1 : SeesValues findroot1) (h2 : SeesValues2 findroot2) (k theta : Param) :
    OrderFree (loggamma.mle findroot findroot1 findroot2 · k theta) := by
  refine OrderFree.of fun x y h => ?_
  cases k <;> cases theta <;> simp only [loggamma.mle, loggamma.shapeScaleEq, loggamma.scaleEq] <;>
    order_simp h <;> order_free h

theorem benktander1_mle {findroot2} (h2 : SeesValues2 findroot2) (a b : Param) : OrderFree (benktander1.mle findroot2 · a b) := by
  refine OrderFree.of fun x y h => ?_
  cases a <;> cases b <;>
    simp only [benktander1.mle, benktander1.mleFree, benktander1.startA, benktander1.dlda, benktander1.dldb] <;>
    order_simp h <;> order_free h

theorem gumbel_max_scale {x y : List Num} (h : x.Perm y) (s m : Num) : Imp (gumbel_max.mleScaleFunc s x m) (gumbel_max.mleScaleFunc s y m) := by
  simp only [gumbel_max.mleScaleFunc]
  refine mapM_zip_bind h _ fun l k p q => ?_
  simp only [zipWith_perm q, fsum_perm p]
  exact Imp.refl _

theorem gumbel_min_scale {x y : List Num} (h : x.Perm y) (s m : Num) : Imp (gumbel_min.mleScaleFunc s x m) (gumbel_min.mleScaleFunc s y m) := by
  simp only [gumbel_min.mleScaleFunc]
  refine mapM_zip_bind h _ fun l k p q => ?_
  simp only [zipWith_perm q, fsum_perm p]
  exact Imp.refl _

theorem bracketStep_imp {F G : Num → M Num} (hF : ∀ t, Imp (F t) (G t)) (s : Num × Num × Num × Num × Bool) :
    Imp (gumbel_max.bracketStep F s) (gumbel_max.bracketStep G s) := by
  simp only [gumbel_max.bracketStep]
  refine Imp.bind (hF _) fun u => ?_
  split
  · exact Imp.refl _
  · exact Imp.bind (hF _) fun w => Imp.refl _

theorem solveFrom_imp {findroot} (hB : SeesValues fun F (p : Num × Num) => findroot F p.1 p.2) (fuel : ℕ) {F G : Num → M Num}
    (hF : ∀ t, Imp (F t) (G t)) (hG : ∀ t, Imp (G t) (F t)) (s : Num) :
    Imp (gumbel_max.solveFrom findroot fuel F s) (gumbel_max.solveFrom findroot fuel G s) := by
  simp only [gumbel_max.solveFrom]
  refine Imp.bind (hF _) fun u => Imp.bind (loop_imp (bracketStep_imp hF) _ _) fun w => ?_
  split
  · exact Imp.refl _
  · split
    · exact Imp.refl _
    · exact findrootB_imp hB hF hG _ _

theorem gumbel_max_solve {findroot} (hB : SeesValues fun F (p : Num × Num) => findroot F p.1 p.2) (fuel : ℕ) {x y : List Num}
    (h : x.Perm y) : Imp (gumbel_max.solveMleScale findroot fuel x) (gumbel_max.solveMleScale findroot fuel y) := by
  simp only [gumbel_max.solveMleScale, mean_perm h, std_perm h]
  refine Imp.bind (Imp.refl _) fun m => Imp.bind (Imp.refl _) fun s => ?_
  split
  · exact Imp.refl _
  · exact solveFrom_imp hB fuel (fun t => gumbel_max_scale h t m) (fun t => gumbel_max_scale h.symm t m) s

theorem gumbel_min_solve {findroot} (hB : SeesValues fun F (p : Num × Num) => findroot F p.1 p.2) (fuel : ℕ) {x y : List Num}
    (h : x.Perm y) : Imp (gumbel_min.solveMleScale findroot fuel x) (gumbel_min.solveMleScale findroot fuel y) := by
  simp only [gumbel_min.solveMleScale, mean_perm h, std_perm h]
  refine Imp.bind (Imp.refl _) fun m => Imp.bind (Imp.refl _) fun s => ?_
  split
  · exact Imp.refl _
  · exact solveFrom_imp hB fuel (fun t => gumbel_min_scale h t m) (fun t => gumbel_min_scale h.symm t m) s

theorem gumbel_max_mle {findroot findroot1} (hB : SeesValues fun F (p : Num × Num) => findroot F p.1 p.2) (h1 : SeesValues findroot1)
    (fuel : ℕ) (loc scale : Option Num) : OrderFree (gumbel_max.mle findroot findroot1 fuel · loc scale) := by
  refine OrderFree.of fun x y h => ?_
  cases loc <;> cases scale <;> simp only [gumbel_max.mle, gumbel_max.mleScaleWithFixedLoc]
  · refine Imp.bind (gumbel_max_solve hB fuel h) fun u => ?_
    order_free h
  all_goals order_simp h; order_free h

theorem gumbel_min_mle {findroot findroot1} (hB : SeesValues fun F (p : Num × Num) => findroot F p.1 p.2) (h1 : SeesValues findroot1)
    (fuel : ℕ) (loc scale : Option Num) : OrderFree (gumbel_min.mle findroot findroot1 fuel · loc scale) := by
  refine OrderFree.of fun x y h => ?_
  cases loc <;> cases scale <;> simp only [gumbel_min.mle, gumbel_min.mleScaleWithFixedLoc]
  · refine Imp.bind (gumbel_min_solve hB fuel h) fun u => ?_
    order_free h
  all_goals order_simp h; order_free h

theorem gamma_nll_grad (k scale : Num) : OrderFree (gamma.nllGrad · k scale) := by
  refine OrderFree.of fun x y h => ?_
  simp only [gamma.nllGrad]; order_simp h; order_free h

theorem gamma_nll_hess (k scale : Num) : OrderFree (gamma.nllHess · k scale) := by
  refine OrderFree.of fun x y h => ?_
  simp only [gamma.nllHess]; order_simp h; order_free h

theorem gamma_nll_invhess (k scale : Num) : OrderFree (gamma.nllInvhess · k scale) := by
  refine OrderFree.of fun x y h => ?_
  simp only [gamma.nllInvhess]; order_simp h; order_free h

theorem nakagami_nll_grad (nu loc scale : Num) : OrderFree (nakagami.nllGrad · nu loc scale) := by
  refine OrderFree.of fun x y h => ?_
  have h' := fun l : Num => h.map fun t => t - l
  simp only [nakagami.nllGrad]; order_simp h
  refine Imp.bind (Imp.refl _) fun u => bounds_bind h _ _ _ _ ?_
  have h'' := h' u.2.1
  order_simp h''
  order_free h''

theorem zip_ones (x : List Num) : x.zip (List.replicate x.length (1 : Num)) = x.map fun t => (t, 1) := by
  induction x with
  | nil => rfl
  | cons a x ih => simp only [List.length_cons, List.replicate_succ, List.zip_cons_cons, ih, List.map_cons]

theorem counts_imp {x y : List Num} (h : x.Perm y) (f : ℤ → M Num) : Imp (validateCounts x none true >>= nllCounts f x) (validateCounts y none true >>= nllCounts f y) := by
  have h' := h.map fun t => (t, (1 : Num))
  simp only [validateCounts, if_true, pure_eq_ok, ok_bind, nllCounts, Option.getD_some, zip_ones]
  order_free h'

theorem poisson_nll (lam : Num) : OrderFree (poisson.nll · lam) := by
  refine OrderFree.of fun x y h => Imp.bind (Imp.refl _) fun l => bounds_bind h _ _ _ _ ?_
  simp only [forall_perm h]
  split
  · exact Imp.refl _
  · exact counts_imp h _

theorem poisson_mle : OrderFree (poisson.mle ·) := by
  refine OrderFree.of fun x y h => ?_
  simp only [poisson.mle, validateCounts, pure_eq_ok, ok_bind, Bool.false_eq_true, if_false, mean_perm h]
  exact Imp.refl _

theorem binomial_nll (n : ℤ) (p : Num) : OrderFree (binomial.nll · n p) := by
  refine OrderFree.of fun x y h => Imp.bind (Imp.refl _) fun l => bounds_bind h _ _ _ _ ?_
  simp only [forall_perm h]
  split
  · exact Imp.refl _
  · exact counts_imp h _

theorem betabinomial_nll (n : ℤ) (a b : Num) : OrderFree (betabinomial.nll · n a b) := by
  refine OrderFree.of fun x y h => Imp.bind (Imp.refl _) fun l => bounds_bind h _ _ _ _ ?_
  simp only [forall_perm h]
  split
  · exact Imp.refl _
  · exact counts_imp h _

theorem logseries_nll (p : Num) : OrderFree (logseries.nll · p none) := by
  refine OrderFree.of fun x y h => Imp.bind (Imp.refl _) fun l => ?_
  simp only [forall_perm h]
  split
  · exact Imp.refl _
  · exact counts_imp h _

theorem logseries_mle (findroot1 findroot2) : OrderFree (logseries.mle findroot1 findroot2 · none) := by
  refine OrderFree.of fun x y h => ?_
  simp only [logseries.mle, mean_perm h]
  exact Imp.refl _

theorem negative_binomial_nll (r p : Num) : OrderFree (negative_binomial.nll · r p) := by
  refine OrderFree.of fun x y h => Imp.bind (Imp.refl _) fun l => ImpL.bind (mapM_impL h _) fun k k' hk => ?_
  exact counts_imp hk _

theorem betabinomial_sum {x y : List Num} (h : x.Perm y) (g : Num → M Num) :
    Imp (betabinomial.sumCounts g x (some (List.replicate x.length 1))) (betabinomial.sumCounts g y (some (List.replicate y.length 1))) := by
  have h' := h.map fun t => (t, (1 : Num))
  simp only [betabinomial.sumCounts, Option.getD_some, zip_ones]
  order_free h'

theorem betabinomial_mle {findroot findroot2} (h1 : SeesValues findroot) (h2 : SeesValues2 findroot2) (n : Option ℤ) (a b : Param) :
    OrderFree (betabinomial.mle findroot findroot2 · none n a b) := by
  refine OrderFree.of fun x y h => ?_
  cases n with
  | none => exact Imp.refl _
  | some n =>
    simp only [betabinomial.mle]
    split
    · exact Imp.refl _
    refine bounds_bind h _ _ _ _ ?_
    simp only [forall_perm h]
    split
    · exact Imp.refl _
    simp only [validateCounts, if_true, pure_eq_ok, ok_bind]
    have A : ∀ {x y : List Num}, x.Perm y → ∀ (n : ℤ) (b t : Num), Imp (betabinomial.eqnA x (some (List.replicate x.length 1)) n b t)
        (betabinomial.eqnA y (some (List.replicate y.length 1)) n b t) := fun h n b t =>
      Imp.bind (Imp.refl _) fun _ => Imp.bind (Imp.refl _) fun _ => Imp.bind (Imp.refl _) fun _ => betabinomial_sum h _
    have B : ∀ {x y : List Num}, x.Perm y → ∀ (n : ℤ) (b t : Num), Imp (betabinomial.eqnB x (some (List.replicate x.length 1)) n b t)
        (betabinomial.eqnB y (some (List.replicate y.length 1)) n b t) := fun h n b t =>
      Imp.bind (Imp.refl _) fun _ => Imp.bind (Imp.refl _) fun _ => Imp.bind (Imp.refl _) fun _ => betabinomial_sum h _
    have C : ∀ {x y : List Num}, x.Perm y → ∀ (n : ℤ) (b t : Num), Imp (betabinomial.eqns x (some (List.replicate x.length 1)) n b t)
        (betabinomial.eqns y (some (List.replicate y.length 1)) n b t) := fun h n b t =>
      Imp.bind (Imp.refl _) fun _ => Imp.bind (Imp.refl _) fun _ => Imp.bind (Imp.refl _) fun _ => Imp.bind (Imp.refl _) fun _ =>
        Imp.bind (betabinomial_sum h _) fun _ => Imp.bind (betabinomial_sum h _) fun _ => Imp.refl _
    cases a <;> cases b <;> simp only [betabinomial.mleFit] <;> first
      | exact Imp.refl _
      | exact Imp.bind (Imp.refl _) fun u => Imp.bind (findroot_imp h1 (fun t => A h _ _ t) (fun t => A h.symm _ _ t) _) fun _ => Imp.refl _
      | exact Imp.bind (Imp.refl _) fun u => Imp.bind (findroot_imp h1 (fun t => B h _ _ t) (fun t => B h.symm _ _ t) _) fun _ => Imp.refl _
      | exact Imp.bind (Imp.refl _) fun u => Imp.bind (findroot2_imp h2 (fun t s => C h _ t s) (fun t s => C h.symm _ t s) _) fun _ => Imp.refl _

/-- The hypothesis can hold: a fit that returns a value. -/
example : uniform.mle ([1, 2].map fin) = .ok (fin 1, fin 2) ∧ uniform.mle ([2, 1].map fin) = .ok (fin 1, fin 2) := by
  have h : uniform.mle ([1, 2].map fin) = .ok (fin 1, fin 2) := by
    simp [uniform.mle, py.min, py.max, fin_lt, gt_iff]
  exact ⟨h, uniform_mle [1, 2] [2, 1] (List.Perm.swap 2 1 []) _ h⟩

/-- The words are not empty: taking the first of the data depends on the order. -/
example : ¬ OrderFree fun x : List Num => (match x with | [] => .error .valueError | a :: _ => .ok a : M Num) := by
  intro h
  have := h [1, 2] [2, 1] (List.Perm.swap 2 1 []) (fin 1) rfl
  simp at this

/-- Root finders as in the hypotheses exist: one that evaluates the function once, and one step of an iteration. -/
example : SeesValues fun (F : Num → M Num) (s : Num) => F s := fun F G h s v hv => (h s v).1 hv

example : SeesValues2 fun (F : Num → Num → M (Num × Num)) (s : Num × Num) => (F s.1 s.2 >>= fun v => F v.1 v.2) := by
  intro F G h s v hv
  beta_reduce at hv ⊢
  cases e : F s.1 s.2 with
  | error _ => rw [e] at hv; cases hv
  | ok w => rw [e] at hv; rw [(h _ _ _).1 e]; exact (h _ _ _).1 hv

end Mpsci.order
