# Formal model of mpsci in Lean 4

The source modelled is `/repo` (mpsci, Python on top of mpmath), read as text.
Properties are in `properties.jsonl` (C01 ...), the claims in `MANIFEST.json`,
the Lean project in `lean/`, mutation experiments in `seeded/LOG.jsonl`.

## 1. How the code is modelled

**Numbers.** An mpmath real is modelled by `Num` (`Verif/Base/Num.lean`):
a finite real number `fin x` (x : ℝ), `pinf`, `ninf` or `nan`.
Addition, multiplication, negation, comparison (`<`, `<=`, `==`; every
comparison with nan is false) follow the mpmath rules (`inf - inf = nan`,
`0*inf = nan`).  Operations that can raise live in the exception monad
`M = Except Err`: division by zero is `.error zeroDivision`, `raise ValueError`
is `.error valueError`, and so on.  Where mpmath would leave the real line (log
or fractional power of a negative number) the model returns
`.error complexResult`; the code would go on with an `mpc`; no theorem claims
anything about such a run beyond "no real number is returned".

**Functions.** Each modelled Python function is a Lean function of the same
name, in namespace `Mpsci.<module>`, written branch by branch, with a comment
citing file and lines.  Loops are structural recursion or folds; `while` loops
with data-dependent exit are modelled by fuel or as a step relation, and
termination is a theorem.  Lists are `List`.

**Integer code** (Fisher's exact test, unique_counts, supports, coefficient
lists, counts validation) is modelled computably over `Nat`/`Int`/`Rat`, which
is exact: Python ints and Fractions are unbounded.

**mpmath special functions** are given their textbook definitions from Mathlib
(exp, log, rpow, sin, cos, arctan, Gamma, integrals for the incomplete gamma and beta
functions, the normal cdf as an integral; Gauss' hypergeometric function 2F1 by Euler's integral, for `0 < a < c` and
`z < 1`, other arguments being `notModelled`).

**Numerical solvers.**  `mp.findroot` is a parameter of the model, with the
contract stated where it is used: for a bracketing call, "if the function is
continuous and changes sign over the bracket, a zero in the bracket is returned"
(`Spec/RootFinder.lean`: `RootFinder`; for the
unbracketed uses, the inverses of cosine and slash, `NewtonFinder`: "if the function has a zero, a zero is returned"). Both are shown to be
satisfiable there. For the secant and multidimensional Newton searches of the `mle` functions only
soundness is assumed (`SoundFinder`, `SoundFinder2`: whatever is returned is a zero); such theorems are named `_partial`.
`Spec/Search.lean` has the contracts of the secant and bisection solvers used by quantile functions (`SecantFinder`,
`BisectFinder`) and the meaning of "the call returns v": for every large enough fuel of its loops.
Hand-written Newton loops are modelled step by step (`Model/Common/Newton.lean`), their exit test `mp.almosteq` with the
tolerance as a parameter.
Some modules pass `method=` where mpmath's keyword is `solver`, so the argument is ignored; the
contract does not depend on the method. The code around it (bracket, special cases, sign switches) is
modelled. Whether a given mpmath solver meets the contract is outside the model.

## 2. What is idealised (trusted or left out)

* mpmath arithmetic is exact real arithmetic. Rounding (except in the model of `mp_bisect`, whose exit test is about rounded midpoints: `Base/Float.lean`), working precision, `mp.extradps`, `mp.workprec`, cancellation and
  convergence speed are outside the model. So theorems say "the formulas are right", not "the digits are right".
* `log1p(x) = log(1+x)`, `expm1(x) = exp(x)-1`, `fsum` = sum, and so on: the
  distinction between these exists only to control rounding.
* Conversion of inputs (`mp.mpf(x)`, `mpmathify`) is the identity on numbers. Strings, complex and other types as
  input are outside.
* Float literals (in `cosine.invcdf`'s starting value) are taken as the decimals written.
* `mp.nsum` is the sum of the series (`Base/Nsum.lean`) and `mp.diff` the exact derivative (`Model/Stats/Boxcox.lean`); a sum
  or derivative that does not exist is `notModelled`. `mp.quad` is the exact integral over each interval (`Base/Quad.lean`).
* Bessel functions of real order and Wright's function are defined by their series, `K` by its integral (`Base/BesselR.lean`), at
  positive arguments.
* `mp.matrix` is its dimensions and entries; `mp.det` and `mp.inverse` are exact for real square matrices (`Base/Mat.lean`).
* Every function in
  `mpsci/distributions`, `mpsci/stats` and `mpsci/fun` has a definition in `lean/Verif/Model` citing its lines.
* Docstring machinery, plots, tests, `__all__` are outside, except where a
  finding is recorded in section 5.

## 3. Trusted base

* Lean 4.33.0's kernel, and Mathlib's definitions (Real.exp, Real.log, rpow,
  Gamma, the Bochner integral, ...).
* Axioms: each theorem depends at most on `propext`, `Classical.choice`,
  `Quot.sound` (checked with `#print axioms`). No axioms of our own, no `sorry`, no `native_decide`,
  no `bv_decide`.
* The reading of the Python source and of mpmath's conventions, cited at each
  definition.

## 4. Plan per property

Layout of `lean/Verif`: `Base/` (numbers, mpmath functions), `Spec.lean` (the
small specification vocabulary the property theorems are written in),
`Model/` (the code), `Lemmas/` (helper lemmas), `Props/` (property theorems
with non-vacuity examples).

| id | model | proof |
|----|-------|-------|
| C01 | cdf, sf of each closed-form module as `Num → ... → M Num` | evaluate both on finite arguments (case split on the branches), then algebra |
| C02 | cdf | closed-form monotonicity of compositions; limits by `Tendsto` composition |
| C03 | pdf, cdf | derivative of cdf on the support, then the fundamental theorem of calculus on half-lines |
| C04 | pdf, logpdf | log of products and powers, branch by branch |
| C05 | cdf, sf, invcdf, invsf | algebra with exp/log/rpow/trig inverses |
| C06 | `_validate_p` and all invcdf/invsf | branch analysis. laplace does not validate: negation |
| C07 | validators and pdf/cdf/sf | branch analysis, both directions |
| C08 | pdf, cdf, sf | algebra on the evaluated forms |
| C09 | pdf, mode | sign of the derivative of logpdf, or elementary inequalities |
| C10 | median, cdf | algebra |
| C11 | pairs of modules | unfolding both sides |
| C12 | pairs of modules | unfolding both sides |
| C13 | fisher_exact, computable over Nat/Rat | log-concavity of `C(r0,k) C(r1,c-k)` gives unimodality; the two scanning loops then collect exactly the tables with count <= observed; Vandermonde gives the denominator |
| C14 | fisher_exact | from C13 and symmetries of the binomial products |
| C15 | logbinomial with log Γ | Γ(n+1) = n! |
| C16 | logsumexp | exp(a-m) factor out |
| C17 | _powm1, _xlogy | exp/log algebra |
| C18 | _boxcox | exp/log algebra, monotonicity |
| C19 | _yeojohnson | four branches, monotonicity across 0 |
| C20 | mean, gmean, hmean, pmean | sums over lists; Jensen-free direct bounds |
| C21 | same | Mathlib's mean inequalities (weighted power means) |
| C22 | lehmer_mean | equality off the special points; at p = 1/2 the code returns gmean: negation with data [1, 1, 4] |
| C23 | var, std, variation | sums |
| C24 | unique_counts over a linear order | mergesort + groupBy lemmas |
| C25 | pearsonr | Cauchy–Schwarz |
| C26 | anova_oneway's F | sum-of-squares decomposition |
| C27 | chisquare, gtest statistics | squares; Gibbs via log t <= t - 1 |
| C28 | bracket searches, fuelled loops | loop invariants; termination from p being attained |
| C29 | `_validate_counts`, nll functions | list induction |
| C30 | nll, logpdf | list induction |
| C31 | mle closed forms | convexity / `log t <= t-1` |
| C32 | mom | algebra |
| C33 | pmf of discrete distributions | binomial theorem, exponential series, Vandermonde, telescoping |
| C34 | cdf, sf of the discrete distributions | finite or infinite sums |
| C35 | logpmf | log algebra with logbinomial |
| C36 | mode | ratio test pmf(k+1)/pmf(k) |
| C37 | mean, var | integrals / sums |
| C38 | multivariate_hypergeometric | recursion on the colour list; generalised Vandermonde |
| C39 | _odds_ratio | branch analysis; the sample confidence interval always raises TypeError: negation |
| C40 | interval_prob | branch analysis |
| C41 | quantile end points | branch analysis; failures recorded in section 5 |
| C42 | remaining logpdf modules | negations with witnesses plus partial theorems |
| C43 | gamma nll derivatives | HasDerivAt; digamma as derivative of log Γ |
| C44 | state machine: cache + caller mutation | negation by a concrete history; positive part for callers that do not mutate |
| C45 | dirichlet | sums |
| C46 | mp_bisect over a finite grid of representable numbers with rounding midpoint | measure on the bracket width |
| C47 | nct._poly_coeffs | induction with the invariant "leading coefficients 0, 1" |
| C48 | cdf and sf evaluated at `pinf`/`ninf` in the `Num` model | simp on the branches |
| C49 | p-values of pearsonr, `mp.betainc` as the regularised integral | reflection and complement formulas of the incomplete beta integral |
| C50 | noncentral_moment, mean, var | algebra on the closed forms |
| C51 | logcdf, logsf | case analysis on the branches, log of the closed form |
| C52 | `digammainv` with the root finder as a parameter | bounds `log(x - 1/2) ≤ psi(x) ≤ log x - 1/(2x)` from the functional equation; a bracket inequality for each of the three starting formulas; a witness where the bracket misses the solution |
| C53 | chi2.invcdf_k, invsf_k, with the bracket search as a loop | strict monotonicity of the regularised incomplete gamma function in its shape parameter |
| C54 | `_boxcox_mle.py`, `_yeojohnson_mle.py`; `mp.diff` exact | normal likelihood maximised by the sample mean and variance; derivative of the transforms in x and in lam (removable singularity at lam = 0) |
| C55 | pearsonr_ci, `mp.atanh`, normal.invcdf | monotonicity of tanh and of the normal quantile |
| C56 | vonmises, `mp.besseli` of orders 0 and 1 by Bessel's integral | shift to a symmetric interval; odd part 0; sign of I_1 by parts |
| C57 | `hermite_e`; `mp.hermite` by its recurrence | derivative of He_(n+1) by induction; Mathlib's Rodrigues formula |
| C58 | the four spherical Bessel functions; Bessel functions by their series, K by its integral | recurrence of Wright's series; duplication formula for half-integer orders |
| C59 | `wright_bessel`, every branch | reflection formula and log-convexity of Gamma bound the terms; the shortcuts are summed in closed form |
| C60 | `roots_legendre` | orthogonality by parts, all zeros real and simple, interpolatory quadrature at the zeros, weight by integrating the derivative of `P_n^2 / (x - x_k)` |
| C61 | `debye`, both methods | bound on Bernoulli numbers from zeta values; Cauchy product with e^t - 1; termwise integration |
| C62 | `marcumq`, `cmarcumq` | Poisson mixture of gamma distributions under x -> x^2/2 |
| C63 | ncx2, rice, ncf | Poisson mixtures of gamma and beta prime distributions, termwise integration; Turán's inequality for I_0, I_1 gives the shape of the Rice density |
| C64 | nct | Gaussian integral against the chi density of the denominator, by Fubini; expanding exp(x nc t) and integrating termwise gives the series; the moments are Gaussian moments times moments of 1/S |
| C65 | dirichlet | the Dirichlet integral by induction on the dimension (Fubini, beta integral on (0, c)); moments by shifting parameters; E log x_i by differentiating in alpha_i under the integral |
| C66 | multivariate_t, with `mp.matrix`, `mp.det`, `mp.inverse` (Base/Mat.lean) | Euler's integral for a power and the Gaussian integral give the integral of (1 + |z|^2/nu)^(-s); linear change of variables by a square root of the scale matrix; entropy by differentiating in s |
| C67 | gamma `_nll_invhess_diag`, `_mle_se`, `_mle_ci` | cofactors of the 2x2 Hessian; positive definite at stationary points by k psi'(k) > 1 |
| C68 | `itertools.count` as a sequence; support of poisson, negative_binomial, logseries, gauss_kuzmin | positivity of each pmf |
| C69 | faddeevaw on the complex numbers | an entire function has a primitive, which equals the segment integral; uniqueness by an integrating factor |
| C70 | support of every continuous module | strict monotonicity of the cdf from its inverse (C05), or positivity of the density (C03) |
| C71 | Model/Fit/BetaCens | differentiation of the incomplete beta integral under the integral sign in both parameters, twice |
| C72 | Model/Stats/FisherExact, Model/Stats/OddsRatio | case analysis |
| C73 | Model/Stats/PValues, Model/Stats/Goftests | unregularised incomplete gamma integral divided by the gamma function, distribution functions of chi2 and f |
| C74 | Model/Fun/InvRegIncBeta | the bisection of C46, strict monotonicity of the regularized incomplete beta function, an arbitrary sound root finder for mp.findroot |
| C75 | Model/Dist/* | default arguments of the model functions, compared with explicit ones |
| C76 | Model/Dist/* | evaluation of every branch at nan; comparisons with nan are false |
| C77 | Model/Stats/*, Model/Fit/* | every step of the program maps permuted data to permuted data; sums, means, sorted lists, minima and maxima are invariant; root finders by extensionality |
| C78 | Model/Fit/*, Model/Dist/Normal, Lognormal, Model/Stats/Basic | closed form of each estimate, affine rules for sample mean, variance, minimum, maximum, sorted list and power mean; the Weibull and gamma shape equations are invariant |
| C79 | Model/Fit/*, Model/Dist/* | nll is minus the sum of logpdf (C30); logpdf at the rescaled point and parameters differs by log c |
| C80 | Model/Fit/LocScale, Positive, Beta, Model/Stats/Pearsonr | closed forms of the estimates; a relation between the states of the two bracketing loops (same points, opposite signs) for the Gumbel fits; the Weibull and beta fits reduce to the same call |
| C81 | Model/Stats/Basic, Pearsonr, Model/Fit/LocScale, Positive | every estimate is a function of sample means, extremes and the median, which do not see the copies; sorting the copies repeats each order statistic; pooled likelihoods from C30 |

## 5. Disagreements between code and property

Each entry has a theorem with a concrete witness.

| id | what the code does | theorem |
|----|--------------------|---------|
| C06 | `laplace.invcdf`/`invsf` do not validate `p` | `laplace.accepts_bad_p` |
| C16 | `logsumexp([-inf])` is nan, not -inf; weights of another length are silently cut to the shorter list | `logsumexp_edge`, `logsumexp_truncates` |
| C20 | `pmean` with an infinite exponent ignores weights that are zero | `pmean_inf_ignores_weights` |
| C22 | `lehmer_mean` with `p = 1/2` returns the geometric mean (true only for two values) | `lehmerMean_half_wrong` |
| C27 | totals are compared with `almosteq`, so with totals that differ slightly `gtest` may be negative | `gtest_lower_bound` (the exact bound that does hold) |
| C73 | totals that differ within the tolerance can make `gtest` return a complex p-value; `chisquare` silently ignores the tail of the longer of two lists of different lengths but counts it in the degrees of freedom | `gtest_complex`, `chisquare_lengths` |
| C41 | `cauchy`, `pareto`: an end point divides by zero; `benini`: nan | `cauchy.endPoints_fail`, `pareto.endPoints_fail`, `benini.endPoints_nan` |
| C49 | with two data pairs every p-value is 1 (so 'less' + 'greater' = 2) | `pearsonr_two` |
| C46 | `mp_bisect(lambda t: t, -1, 2)` never returns: the rounded midpoint approaches 0 through ever smaller floats | `mpBisect_never_ends` |
| C50 | `nct.mean` takes `log(nc)`, so for negative `nc` it leaves the real line (the first moment is a negative real) | `nct.mean_negative_nc` |
| C33 | `binomial.pmf(k, n, p)` raises ZeroDivisionError outside the support for `p = 0`, `k < 0` and `p = 1`, `k > n` | `binomial.pmf_raises` |
| C35 | `binomial.logpmf` raises ValueError outside the support; `logpmf(0, n, 0)` is nan | `binomial.logpmf_off_support`, `binomial.logpmf_nan` |
| C35 | `hypergeometric.logpmf(k)` for `k < -1` evaluates `loggamma` at a negative integer | `hypergeometric.logpmf_far` |
| C35 | `negative_hypergeometric.logpmf` raises ValueError for `untilnbad = 0`, where `pmf` is the point mass at 0 | `negative_hypergeometric.logpmf_zero` |
| C36 | `negative_hypergeometric.mode` raises ZeroDivisionError when `untilnbad = 1` and there is one bad item | `negative_hypergeometric.mode_fails` |
| C38 | `multivariate_hypergeometric.pmf` does not compare the total of the point with `nsample`: `pmf((0,0),(1,1),1) = 1/2`; it raises ValueError when an entry exceeds its colour count | `multivariate_hypergeometric.pmf_fails`, `multivariate_hypergeometric.pmf_raises` |
| C38 | `multivariate_hypergeometric.support` raises IndexError for no colours and yields `[nsample]` for one colour and a negative sample | `multivariate_hypergeometric.support_empty`, `multivariate_hypergeometric.support_neg` |
| C38 | `multivariate_hypergeometric.cov` divides by zero for one item of which none is drawn | `multivariate_hypergeometric.cov_one` |
| C44 | `fishers_noncentral_hypergeometric.support_pmf` hands out the list that the cache keeps: after `support_pmf(...)[1][0] = v`, `pmf` returns `v` | `fishers_noncentral_hypergeometric.cache_corrupted` |
| C39 | `odds_ratio(table, kind='sample')` raises ZeroDivisionError for every table with a zero entry and no zero row or column; its `odds_ratio_ci` raises TypeError for every table | `oddsRatio.sample_zero_fails`, `oddsRatio.sample_ci_fails` |
| C39 | the accepted confidence level 1 (or 0 for a one-sided alternative) makes the search for the limits run forever | `oddsRatio.ci_one_diverges`, `oddsRatio.ci_zero_diverges` |
| C37 | `hypergeometric.var` divides by zero with one item, `mean` with none | `hypergeometric.var_one` |
| C09 | `burr12.mode` for `c <= 1` is 0, where `pdf` returns 0, its smallest value | `burr12.mode_fails` |
| C41 | `burr12.invcdf(1)`/`invsf(0)` raise ZeroDivisionError exactly when `2/d` is an integer | `burr12.endPoints` |
| C41 | `gamma_gompertz.invsf(0)` raises ZeroDivisionError exactly when `2/c` is an integer | `gamma_gompertz.endPoints` |
| C04 | `kumaraswamy.logpdf(0, a=1, b)` and `logpdf(1, a, b=1)` are nan although the density is positive there | `kumaraswamy.isLogOf_fails`, `kumaraswamy.logpdf_ends` |
| C04 | `exponweib.logpdf(0, a=1, c=1)` is nan, `pdf` is 1 | `exponweib.isLogOf_fails` |
| C07 | `exponweib.pdf(0)` raises ZeroDivisionError for `a = 1/2`, `c = 2` (valid parameters) | `exponweib.pdf_zero_raises` |
| C04 | `genpareto.logpdf` at the upper end for `xi = -1` is nan (0 times -inf), `pdf` is `1/sigma` | `genpareto.isLogOf_fails` |
| C07 | `genpareto.pdf` and `genextreme.pdf` at the upper end raise ZeroDivisionError for `xi = -2` | `genpareto.pdf_raises`, `genextreme.pdf_raises` |
| C04 | `genextreme.logpdf` at the upper end for `xi = -1` is -inf, `pdf` is `1/sigma` | `genextreme.isLogOf_fails` |
| C41 | `genextreme.invcdf(1)`/`invsf(0)` raise ZeroDivisionError exactly when `xi > 0` and `2 xi` is an integer | `genextreme.endPoints_upper` |
| C50 | `genextreme.noncentral_moment(n, xi=0)` raises ZeroDivisionError for every `n >= 1` | `genextreme.moment_raises` |
| C41 | `hypsecant.invcdf(1)`, `invsf(1)` take `tan` of a rounded `pi/2`; not infinite (not modelled: depends on rounding) | `hypsecant.endPoints_partial` |
| C48 | `benktander1.cdf(inf)`, `sf(inf)` are nan | `benktander1.atInfinity_fails` |
| C48 | `benktander2.cdf(inf)`, `sf(inf)` are nan for `b = 1` | `benktander2.atInfinity_fails` |
| C41 | `benktander2.invcdf(1)`/`invsf(0)` raise ZeroDivisionError for `b = 1/2` (whenever `b < 1` and `2b/(1-b)` is an integer) | `benktander2.endPoint_fails` |
| C07 | `benktander2.mode` does not validate its arguments | `benktander2.mode_not_validated` |
| C01-C04 | `genexpon` raises ValueError for `x < loc` in `cdf`, `sf`, `pdf`, `logpdf` | `genexpon.raises_left`, `genexpon.not_isCdf` |
| C04 | `genexpon.logpdf` omits `-log(scale)` | `genexpon.logpdf_omits_scale` |
| C48 | `genexpon.cdf(-inf)`, `sf(-inf)` raise ValueError | `genexpon.atNegInf_fails` |
| C01, C07, C48 | `lognormal.sf(x)` raises AttributeError for every `x <= 0` (`mp.mp.one`) | `lognormal.raises_left`, `lognormal.atInfinities_partial` |
| C30 | `normal.nll(x)` without parameters uses `mu = 1`, while `normal.logpdf` uses `mu = 0` | `normal.nll_default` |
| C31, C32 | `normal.mle`, `lognormal.mle` and `lognormal.mom` of constant data return `sigma = 0`, which the other functions of the module reject | `normal.mle_constant`, `lognormal.mom_constant` |
| C37 | `slash.mean()` returns 0 although the distribution has no mean | `slash.mean_fails` |
| C31, C47 | `gumbel_max.mle` and `gumbel_min.mle` do not check a fixed `scale`: a negative one is returned with a location | `gumbel_max.mle_unchecked_scale` |
| C31 | `gumbel_max.mle`, `gumbel_min.mle` of constant data raise ZeroDivisionError; `uniform.mle` of constant data returns an empty interval that `uniform.logpdf` rejects | `gumbel_max.mle_constant`, `gumbel_min.mle_constant`, `uniform.mle_constant` |
| C31 | `pareto.mle` with `b` free and `loc` and `scale` both fixed ignores the fixed `loc` | `pareto.mle_ignores_loc`, `pareto.mle_ignores_loc_example` |
| C31 | `pareto.mle` with `b` and `loc` fixed and an observation equal to `loc` returns `scale = 0`; constant data raise ZeroDivisionError | `pareto.mle_zeroScale`, `pareto.mle_constant` |
| C31 | `gompertz.mle` of data that are all zero raises ZeroDivisionError | `gompertz.mle_errors` |
| C31 | `kumaraswamy.mle`, `weibull_min.mle` and `weibull_max.mle` of constant data look for a root that does not exist | `kumaraswamy.mle_constant`, `weibull_min.mle_constant`, `weibull_max.mle_constant` |
| C31 | `burr12.mle` with `d` and `scale` fixed and all data equal to `scale` never returns | `burr12.mle_diverges` |
| C31 | `burr12.mle` with only `scale` fixed, and all data at or above `scale` or all data equal, has no zero to bracket and, in exact arithmetic, never returns | `burr12.mle_fixedScale_diverges` |
| C31 | `burr12.mle` with `c` and `d` fixed and data as small as the working precision brackets the scale by an interval starting at 0, where its equation divides by zero | `burr12.scaleBracket_zero` |
| C31 | `poisson.mle` of data that are all zero returns 0, which `nll` rejects | `poisson.mle_zero` |
| C31 | `binomial.mle` with `n` fixed and data that are all zero returns `p = 0`, where `nll` is nan | `binomial.mle_zero` |
| C29, C31 | `binomial.mle` with `p` fixed ignores `counts` in its first threshold test | `binomial.mle_ignores_counts` |
| C33, C35 | `negative_binomial.pmf` and `logpmf` raise ValueError on the whole support for `0 < r < 1` | `negative_binomial.pmf_small_r` |
| C33, C34, C37 | `negative_binomial` accepts `p = 1`, where `pmf` is zero everywhere, `sf` is one everywhere and `mean`, `var` divide by zero | `negative_binomial.p_one` |
| C36 | `negative_binomial.mode(r, 0)` is -1 for `r > 1` | `negative_binomial.mode_p_zero` |
| C30 | `negative_binomial.nll` raises ValueError for `0 < r < 1` | `negative_binomial.nll_small_r` |
| C33, C35, C37 | `logseries` with `p = 0`, which is accepted: `pmf` and `logpmf` are nan on the support and `mean` divides by zero | `logseries.p_zero` |
| C33, C37 | `logseries` with `p = 1`, which is accepted: `pmf` is 0 everywhere and `mean` divides by zero | `logseries.p_one` |
| C31 | `logseries.mle` returns 0 for data that are all 1; `nll` at 0 is nan | `logseries.mle_ones` |
| C07 | `trunc_discrete_exp.mode` returns 0 for parameters that the other functions reject | `trunc_discrete_exp.mode_invalid` |
| C33, C37 | `trunc_discrete_exp` with `n = 0`, which is accepted: no mass at all; `mean` is -1/2 or divides by zero | `trunc_discrete_exp.n_zero` |
| C10, C36 | `gauss_kuzmin.invcdf(1/2)` is `√2`, not an integer and not the median; `invcdf(0)` is 0, below the support (C41) | `gauss_kuzmin.invcdf_half`, `gauss_kuzmin.inv_ends` |
| C37 | `betabinomial` with `n = 0`, which is accepted: `skewness` and `kurtosis` divide by zero | `betabinomial.n_zero` |
| C40 | `gamma.interval_prob` with `x1 < 0` does not clip: with integer shape it returns a number different from `cdf(x2) - cdf(x1)`, otherwise a complex number | `gamma.intervalProb_fails`, `gamma.intervalProb_complex` |
| C42 | `gamma.logpdf(0)` is nan for `k = 1`, where the density is `1/theta` | `gamma.logpdf_zero_fails` |
| C52 | `digammainv(-1/8)` starts its bracketing solver with an interval at both of whose ends the digamma function is below -1/8 | `fun_.bracket_fails` |
| C31 | `gamma.mle` divides by zero when all data are equal | `gamma.mle_equal` |
| C03, C42 | `chi.pdf(0)` is nan for `k = 1`, where the density is `√(2/π)` | `chi.pdf_zero_fails` |
| C09 | `nakagami.mode` for `nu = 1/2` is `loc`, where `pdf` is 0 (the smallest value), and for `nu < 1/2` a complex number | `nakagami.mode_half_fails`, `nakagami.mode_complex_fails` |
| C41 | `maxwell.invcdf(0)` and `maxwell.invsf(1)` return 0 instead of `loc` | `maxwell.lower_end_fails` |
| C06, C41 | `chi2.invcdf` and `chi2.invsf` do not check p, and the search never ends for p ≤ 0 and p ≥ 1 | `chi2.search_fails` |
| C42 | `chi2.logpdf(0)` is nan for `k = 2`, where the density is 1/2 | `chi2.logpdf_zero_fails` |
| C41 | `levy.invcdf(1)` and `levy.invsf(0)` divide by zero instead of returning inf | `levy.upper_end_fails` |
| C41 | `levy.support` has a spurious first parameter, so `support(loc, scale)` drops its first argument | `levy.support_fails` |
| C07 | `loggamma.invcdf` and `loggamma.invsf` return at p = 0 and p = 1 before looking at the parameters | `loggamma.endPoints_not_validated` |
| C40 | `beta.interval_prob` does not clip to [0, 1]: the "probability" of [-1, 2] is 3 for `a = b = 1` | `beta.intervalProb_outside` |
| C41 | `betaprime.invsf(0)` returns 1, where the survival function is positive, instead of infinity | `betaprime.invsf_zero_fails` |
| C41 | `f.invcdf(1)` and `f.invsf(0)` divide by zero instead of returning inf | `fdist.endPoints_fails` |
| C03, C09 | `f.pdf(0)` is 0 also for `dfn <= 2`, where the density is positive or unbounded at 0; so for `dfn = 2` the value at the mode is not the maximum | `fdist.pdf_zero_fails`, `fdist.mode_fails` |
| C48 | `f.cdf(inf)` and `f.sf(inf)` compute `inf/inf` and hand nan to `mp.betainc` | `fdist.atInfinities_partial` |
| C05 | `studentt.invcdf(p)` for `p > 1/2` solves for `1 - p` and negates, but not when the bracket search hits the solution exactly: at `p = cdf(1/2)` it returns -1/2; `invsf` inherits this | `studentt.inverts_cdf_fails`, `studentt.inverts_sf_fails` |
| C37 | `studentt.mean(df)` is 0 also for `df <= 1`, where the mean does not exist | `studentt.mean_fails` |
| C48 | `invgauss.cdf(+inf)` and `sf(+inf)` compute `inf/inf` and return nan, for all parameters | `invgauss.atInfinities_fails` |
| C02, C05 | for `lam < 0` the bracket of `tukeylambda.cdf` can keep an end at 0 or 1, where the quantile function is infinite; the "anderson" solver then returns nan: in the right tail for every `lam < 0`, in the left tail for `lam` near 0 | `tukeylambda.cdf_fails_right`, `tukeylambda.cdf_fails_left` |
| C48 | `tukeylambda.cdf(-inf)` raises ZeroDivisionError for `lam < 0` | `tukeylambda.cdf_ninf_raises` |
| C50 | `tukeylambda.noncentral_moment` raises ZeroDivisionError for `lam = 0`, order 2, and returns `loc` as the first moment for `lam <= -1`, where there is none | `tukeylambda.moment_two_raises`, `tukeylambda.moment_one_fails` |
| C31 | `hypsecant.mle` solves equations that are even in the scale and does not check the sign of the root: a sound root finder may return a negative scale | `hypsecant.mle_negative_scale` |
| C55 | `pearsonr_ci` does not validate `alpha`: for `1 < alpha < 2` the two-sided interval is returned with its ends exchanged | `pearsonrCi_reversed` |
| C56 | `vonmises` does not validate `kappa`: for `kappa < 0`, `circvar` returns a number above 1 and `circmean` the direction opposite to the mean | `vonmises.negative_kappa` |
| C59 | `wright_bessel` takes the square root of `z` when `rho = 1`, so for negative `z` it leaves the reals although the series has a real sum | `fun_.wrightBessel_one_neg` |
| C07 | `genhyperbolic` accepts `abs(b) = a` with `p < 0`, but `mean`, and with it `cdf` and `sf`, then raise ZeroDivisionError | `genhyperbolic.boundary` |
| C03, C12 | `ncx2.pdf` divides by zero at `lam = 0`, although `cdf` and `sf` accept it and agree with `chi2`; no parameter is validated (C07) | `ncx2.pdf_central_fails`, `ncx2.validates_fails` |
| C03, C12 | `ncf.pdf` and `ncf.cdf` at `nc = 0`: the first term of the series is `0*log(0)`, nan, although `mean` and `var` accept it; no parameter is validated (C07) | `ncf.central_fails`, `ncf.validates_fails` |
| C12 | `nct.pdf` and `nct.logpdf` at `nc = 0`: the first term of the series is `0*log(0)`, nan, at every `x` | `nct.central_fails` |
| C68 | `negative_binomial.support` and `logseries.support` do not validate their parameters, unlike `pmf` | `negative_binomial.support_accepts`, `logseries.support_accepts` |
| C65 | `dirichlet.pdf` at boundary points where one component with `alpha > 1` and one with `alpha < 1` vanish is nan | `dirichlet.boundary_nan` |
| C09 | the equation solved by `rice.mode` is even and its root is not checked for sign | `rice.mode_equation`, `rice.isMode_partial` |
| C70 | `genexpon.cdf` raises ValueError left of the lower end that `support` returns | `genexpon.isSupport_partial` |
| C70 | `levy.support` takes a probability as its first argument and rejects a call with location and scale outside [0, 1] | `levy.support_fails` |
| C74 | `betaincinv(1, 2, 0.75, method=('findroot', 1.5))` returns 1.5: only negative roots are rejected, and the function continues beyond 1 | `betaincinv_beyond_one` |
| C74 | `betaincinv(a, b, nan, method='bisect')`, `f.invcdf(nan, dfn, dfd)` and `f.invsf(nan, dfn, dfd)` never return: nan passes the checks and the sign of nan is not equal to itself | `betaincinv_nan_never_ends`, `f_inverse_nan_never_ends` |
| C75 | `normal.nll(x)` takes `mu = 1` when the parameters are omitted, so it is not the negative log-likelihood of `normal.logpdf` | `normal_nll_default` |
| C76 | `uniform.pdf(nan, a, b)` is `1/(b - a)` and `uniform.logpdf(nan, a, b)` is `-log(b - a)` | `NanArgs.uniform_pdf_nan`, `NanArgs.uniform_logpdf_nan` |
