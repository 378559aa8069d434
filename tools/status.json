{
 "C43": {
  "status": "proved",
  "note": ""
 },
 "C13": {
  "status": "proved",
  "note": ""
 },
 "C14": {
  "status": "proved",
  "note": ""
 },
 "C15": {
  "status": "proved",
  "note": ""
 },
 "C17": {
  "status": "proved",
  "note": ""
 },
 "C18": {
  "status": "proved",
  "note": ""
 },
 "C19": {
  "status": "proved",
  "note": ""
 },
 "C21": {
  "status": "proved",
  "note": ""
 },
 "C23": {
  "status": "proved",
  "note": ""
 },
 "C24": {
  "status": "proved",
  "note": ""
 },
 "C25": {
  "status": "proved",
  "note": ""
 },
 "C26": {
  "status": "proved",
  "note": ""
 },
 "C27": {
  "status": "proved",
  "note": ""
 },
 "C28": {
  "status": "proved",
  "note": ""
 },
 "C45": {
  "status": "proved",
  "note": ""
 },
 "C47": {
  "status": "proved",
  "note": ""
 },
 "C49": {
  "status": "proved",
  "note": ""
 },
 "C16": {
  "status": "proved",
  "note": "Also proved: the input [-inf] gives nan, and a weight list of another length is silently cut to the shorter one."
 },
 "C20": {
  "status": "proved",
  "note": "pmean with p = +inf or -inf ignores zero weights (pmean_inf_ignores_weights)."
 },
 "C22": {
  "status": "partial",
  "note": "Proved for every finite p except p = 1/2, where the code returns the geometric mean, which is not the Lehmer mean (lehmerMean_half_wrong)."
 },
 "C46": {
  "status": "partial",
  "note": "Termination and a bracketed sign change are proved when both ends are on one side of zero (as in betaincinv); for brackets around zero the loop need not end (mpBisect_never_ends)."
 },
 "C50": {
  "status": "partial",
  "note": "Proved for the distributions modelled that offer noncentral_moment; some functions do not validate the order or, for the noncentral t, mean takes the logarithm of nc, which leaves the reals for negative nc (nct.mean_negative_nc)."
 },
 "C38": {
  "status": "partial",
  "note": "Support, masses, mean, covariance (two or more items) and entropy are proved for every list of colours; the clause that pmf is 0 off the support is false and its negation is proved (pmf_fails, pmf_raises), as are the failures for no colours, a negative sample and one undrawn item."
 },
 "C39": {
  "status": "partial",
  "note": "Proved for every table: validation, zero margins, the sample odds ratio and its p-values for positive entries, the conditional estimate (unique, maximum likelihood) and its intervals, given a root finder that finds zeros in a bracket. The remaining clauses are false and their negations are proved (sample_zero_fails, sample_ci_fails, ci_one_diverges, ci_zero_diverges)."
 },
 "C44": {
  "status": "partial",
  "note": "Proved for every history of calls and cache evictions in which no caller writes to a returned list (cache_transparent_partial); with such a write the property is false (cache_corrupted)."
 },
 "C01": {
  "status": "proved",
  "note": "Proved for every anchored module; lognormal.sf raises for x <= 0 and genexpon raises below loc (negations proved: lognormal.raises_left, genexpon.raises_left)."
 },
 "C02": {
  "status": "proved",
  "note": "Proved for every listed module and for the further modules modelled; outside the list, tukeylambda.cdf returns nan in the tails for lam < 0 (tukeylambda.cdf_fails_right, cdf_fails_left)."
 },
 "C03": {
  "status": "proved",
  "note": ""
 },
 "C05": {
  "status": "proved",
  "note": "Searching quantile functions are proved given contracts on mp.findroot; the Newton iteration of invgamma, invchi2 and invgauss is proved to end and to be exact up to its tolerance (inverts_cdf_newton, inverts_sf_newton). Outside the listed modules studentt.invcdf and tukeylambda (lam < 0) fail at points given by studentt.inverts_cdf_fails and tukeylambda.cdf_fails_right."
 },
 "C08": {
  "status": "proved",
  "note": ""
 },
 "C10": {
  "status": "proved",
  "note": "invgauss.median is the end of a Newton iteration: exact up to its tolerance (invgauss.median_newton)."
 },
 "C11": {
  "status": "proved",
  "note": ""
 },
 "C31": {
  "status": "partial",
  "note": "Proved for the closed-form estimators and for the bracketed Gumbel search; for the secant and Newton searches proved under the assumption that the value returned is a root. Constant data and unchecked fixed scales are recorded as failures."
 },
 "C32": {
  "status": "partial",
  "note": "For data that are not all equal; constant data are recorded as failures."
 },
 "C29": {
  "status": "partial",
  "note": "Proved for poisson, binomial, negative_binomial, logseries and betabinomial where modelled; binomial.mle with p fixed ignores counts (mle_ignores_counts)."
 },
 "C07": {
  "status": "partial",
  "note": "Proved for the modelled distributions; functions that do not validate are recorded as failures."
 },
 "C33": {
  "status": "partial",
  "note": "Proved for the discrete distributions modelled; binomial.pmf raises for some values off the support (binomial.pmf_raises) and trunc_discrete_exp accepts n = 0, where there is no mass."
 },
 "C34": {
  "status": "partial",
  "note": "Proved for the discrete distributions modelled; hypergeometric only where the code's series is evaluated inside the support (isSumCdf_partial, isSumSf_partial)."
 },
 "C36": {
  "status": "partial",
  "note": "Proved for the discrete distributions that offer a mode; negative_hypergeometric.mode is wrong in cases given by mode_fails."
 },
 "C09": {
  "status": "partial",
  "note": "Proved for the modelled distributions; burr12.mode and folded_normal.mode fail outside the stated parameter ranges (burr12.mode_fails)."
 },
 "C41": {
  "status": "partial",
  "note": "Proved where the end points are returned; the modules that divide by zero or give nan are recorded as failures with witnesses."
 },
 "C48": {
  "status": "partial",
  "note": "Proved where the code returns the limits; benktander1, benktander2, genexpon and lognormal fail at an infinity (negations proved)."
 },
 "C52": {
  "status": "partial",
  "note": "Proved for y <= -3/8 and y > -1/8 given a root finder that finds zeros in a bracket, and for all y if the value returned is a positive zero; at y = -1/8 the bracket misses the solution (bracket_fails)."
 },
 "C40": {
  "status": "partial",
  "note": "Proved for the modelled distributions; gamma.interval_prob and beta.interval_prob do not clip to the support (negations proved)."
 },
 "C53": {
  "status": "proved",
  "note": "Given a bisection that finds the root of a bracketed sign change (BisectFinder)."
 },
 "C51": {
  "status": "proved",
  "note": ""
 },
 "C04": {
  "status": "partial",
  "note": "Proved for the modelled distributions; the ends of the support where logpdf raises or differs from log(pdf) are recorded in DESIGN.md section 5 with their negations."
 },
 "C06": {
  "status": "partial",
  "note": "Proved for every modelled quantile function that validates p; the ones that do not (for example laplace) are recorded in DESIGN.md section 5 with their negations."
 },
 "C12": {
  "status": "partial",
  "note": "Proved for the pairs of modelled modules; special cases in which the code raises or returns another value are recorded in DESIGN.md section 5."
 },
 "C30": {
  "status": "partial",
  "note": "Proved for the modelled distributions that offer nll; data off the support and functions that do not validate are recorded in DESIGN.md section 5."
 },
 "C35": {
  "status": "partial",
  "note": "Proved for the discrete distributions modelled; arguments at which logpmf raises are recorded in DESIGN.md section 5."
 },
 "C37": {
  "status": "partial",
  "note": "Proved for the modelled distributions as integrals or sums of pdf/pmf; the formulas that are wrong are violations, recorded in DESIGN.md section 5 with their negations."
 },
 "C42": {
  "status": "partial",
  "note": "Proved where logpdf is the logarithm of pdf; the end points at which it is not are recorded in DESIGN.md section 5 with their negations."
 },
 "C54": {
  "status": "partial",
  "note": "The likelihoods are proved completely; for the estimators it is proved that a value returned is a stationary point, given a sound root finder, with mp.diff taken to be the exact derivative."
 },
 "C55": {
  "status": "partial",
  "note": "Proved for 0 < alpha < 1; alpha is not validated, and the two-sided interval comes out reversed for 1 < alpha < 2 (pearsonrCi_reversed)."
 },
 "C56": {
  "status": "partial",
  "note": "Proved for kappa > 0 (density and entropy for every kappa); a negative kappa is not rejected and gives a wrong circular mean and variance (vonmises.negative_kappa)."
 },
 "C59": {
  "status": "partial",
  "note": "Proved wherever the code stays in the reals; for rho = 1 and negative z it takes the square root of a negative number (fun_.wrightBessel_one_neg)."
 },
 "C60": {
  "status": "partial",
  "note": "n <= 3 is proved outright; for every larger n it is proved that zeros of the Legendre polynomial found in decreasing order give the rule, and that whatever is returned in increasing order is the rule. That the secant search from the starting points finds these zeros is assumed."
 },
 "C57": {
  "status": "proved",
  "note": ""
 },
 "C58": {
  "status": "proved",
  "note": ""
 },
 "C61": {
  "status": "proved",
  "note": ""
 },
 "C62": {
  "status": "proved",
  "note": ""
 },
 "C63": {
  "status": "proved",
  "note": "At the end point 0 the value of pdf is constrained only where the density is bounded there (dfn > 2, k > 2). The central cases lam = 0 and nc = 0 fail in the code (ncx2.pdf_central_fails, ncf.central_fails)."
 },
 "C64": {
  "status": "proved",
  "note": "The central case nc = 0 is excluded; there the series starts with a nan term (nct.central_fails). The mean is proved for nc > 0; for negative nc the code leaves the reals (nct.mean_negative_nc)."
 },
 "C65": {
  "status": "proved",
  "note": "On the open simplex; at some boundary points the value is nan (dirichlet.boundary_nan)."
 },
 "C66": {
  "status": "proved",
  "note": "mp.det and mp.inverse are modelled as exact. Whether scale is positive definite is not checked by the code; the documentation asks the caller to ensure it."
 },
 "C67": {
  "status": "proved",
  "note": "mleCi_spec covers 0 < alpha < 2; for 1 < alpha the code returns the ends in reversed order, which the theorem states."
 },
 "C68": {
  "status": "partial",
  "note": "Proved for valid parameters of all four. negative_binomial.support and logseries.support do not validate: support_accepts proves that they accept parameters pmf rejects."
 },
 "C69": {
  "status": "proved",
  "note": "mp.erfc at complex arguments is modelled as the integral of exp(-u^2) along the segment from 0."
 }
}