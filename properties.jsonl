{"id": "C01", "title": "cdf and sf are complementary", "statement": "For each of the continuous distributions with closed-form cdf (benini, benktander1, burr12, cauchy, cosine, exponweib, gamma_gompertz, genextreme, genpareto, gompertz, gumbel_max, gumbel_min, half_logistic, hypsecant, kumaraswamy, laplace, logistic, loglogistic, pareto, uniform, weibull_max, weibull_min), calling cdf and sf with the same x and the same valid parameters returns two finite numbers that add to exactly 1.", "quantifier": "every real x and every valid parameter tuple of each listed distribution", "why_tests_cant": "a real-number identity over a continuum of arguments and parameters; tests compare a handful of tabulated values to a tolerance", "anchors": ["mpsci/distributions/benini.py: cdf, sf", "mpsci/distributions/benktander1.py: cdf, sf", "mpsci/distributions/burr12.py: cdf, sf", "mpsci/distributions/cauchy.py: cdf, sf", "mpsci/distributions/cosine.py: cdf, sf", "mpsci/distributions/exponweib.py: cdf, sf", "mpsci/distributions/gamma_gompertz.py: cdf, sf", "mpsci/distributions/genextreme.py: cdf, sf", "mpsci/distributions/genpareto.py: cdf, sf", "mpsci/distributions/gompertz.py: cdf, sf", "mpsci/distributions/gumbel_max.py: cdf, sf", "mpsci/distributions/gumbel_min.py: cdf, sf", "mpsci/distributions/half_logistic.py: cdf, sf", "mpsci/distributions/hypsecant.py: cdf, sf", "mpsci/distributions/kumaraswamy.py: cdf, sf", "mpsci/distributions/laplace.py: cdf, sf", "mpsci/distributions/logistic.py: cdf, sf", "mpsci/distributions/loglogistic.py: cdf, sf", "mpsci/distributions/pareto.py: cdf, sf", "mpsci/distributions/uniform.py: cdf, sf", "mpsci/distributions/weibull_max.py: cdf, sf", "mpsci/distributions/weibull_min.py: cdf, sf"]}
{"id": "C02", "title": "cdf is a distribution function", "statement": "For each listed closed-form continuous distribution, cdf never raises for valid parameters and real x, takes values in [0, 1], never decreases as x increases, is continuous, and tends to 0 at the left end and 1 at the right end.", "quantifier": "every real x, every pair x <= y, every valid parameter tuple", "why_tests_cant": "a real-number identity over a continuum of arguments and parameters; tests compare a handful of tabulated values to a tolerance", "anchors": ["mpsci/distributions/benini.py: cdf", "mpsci/distributions/benktander1.py: cdf", "mpsci/distributions/burr12.py: cdf", "mpsci/distributions/cauchy.py: cdf", "mpsci/distributions/cosine.py: cdf", "mpsci/distributions/exponweib.py: cdf", "mpsci/distributions/gamma_gompertz.py: cdf", "mpsci/distributions/genextreme.py: cdf", "mpsci/distributions/genpareto.py: cdf", "mpsci/distributions/gompertz.py: cdf", "mpsci/distributions/gumbel_max.py: cdf", "mpsci/distributions/gumbel_min.py: cdf", "mpsci/distributions/half_logistic.py: cdf", "mpsci/distributions/hypsecant.py: cdf", "mpsci/distributions/kumaraswamy.py: cdf", "mpsci/distributions/laplace.py: cdf", "mpsci/distributions/logistic.py: cdf", "mpsci/distributions/loglogistic.py: cdf", "mpsci/distributions/pareto.py: cdf", "mpsci/distributions/uniform.py: cdf", "mpsci/distributions/weibull_max.py: cdf", "mpsci/distributions/weibull_min.py: cdf"]}
{"id": "C03", "title": "pdf is the density of cdf", "statement": "For each listed closed-form continuous distribution, pdf is nonnegative, zero outside the support, and the integral of pdf from -infinity to x equals cdf(x); in particular the total mass is 1.", "quantifier": "every real x and every valid parameter tuple (at an end of the support where the density is infinite the value of pdf is not constrained)", "why_tests_cant": "a real-number identity over a continuum of arguments and parameters; tests compare a handful of tabulated values to a tolerance", "anchors": ["mpsci/distributions/benini.py: pdf, cdf", "mpsci/distributions/benktander1.py: pdf, cdf", "mpsci/distributions/burr12.py: pdf, cdf", "mpsci/distributions/cauchy.py: pdf, cdf", "mpsci/distributions/cosine.py: pdf, cdf", "mpsci/distributions/exponweib.py: pdf, cdf", "mpsci/distributions/gamma_gompertz.py: pdf, cdf", "mpsci/distributions/genextreme.py: pdf, cdf", "mpsci/distributions/genpareto.py: pdf, cdf", "mpsci/distributions/gompertz.py: pdf, cdf", "mpsci/distributions/gumbel_max.py: pdf, cdf", "mpsci/distributions/gumbel_min.py: pdf, cdf", "mpsci/distributions/half_logistic.py: pdf, cdf", "mpsci/distributions/hypsecant.py: pdf, cdf", "mpsci/distributions/kumaraswamy.py: pdf, cdf", "mpsci/distributions/laplace.py: pdf, cdf", "mpsci/distributions/logistic.py: pdf, cdf", "mpsci/distributions/loglogistic.py: pdf, cdf", "mpsci/distributions/pareto.py: pdf, cdf", "mpsci/distributions/uniform.py: pdf, cdf", "mpsci/distributions/weibull_max.py: pdf, cdf", "mpsci/distributions/weibull_min.py: pdf, cdf"]}
{"id": "C04", "title": "logpdf is the logarithm of pdf", "statement": "For each listed closed-form continuous distribution, logpdf(x) is the logarithm of pdf(x), and it is -inf where pdf(x) is 0.", "quantifier": "every real x and every valid parameter tuple of the listed modules", "why_tests_cant": "a real-number identity over a continuum of arguments and parameters; tests compare a handful of tabulated values to a tolerance", "anchors": ["mpsci/distributions/benini.py: pdf, logpdf", "mpsci/distributions/benktander1.py: pdf, logpdf", "mpsci/distributions/burr12.py: pdf, logpdf", "mpsci/distributions/cauchy.py: pdf, logpdf", "mpsci/distributions/cosine.py: pdf, logpdf", "mpsci/distributions/exponweib.py: pdf, logpdf", "mpsci/distributions/gamma_gompertz.py: pdf, logpdf", "mpsci/distributions/genextreme.py: pdf, logpdf", "mpsci/distributions/genpareto.py: pdf, logpdf", "mpsci/distributions/gompertz.py: pdf, logpdf", "mpsci/distributions/gumbel_max.py: pdf, logpdf", "mpsci/distributions/gumbel_min.py: pdf, logpdf", "mpsci/distributions/half_logistic.py: pdf, logpdf", "mpsci/distributions/hypsecant.py: pdf, logpdf", "mpsci/distributions/kumaraswamy.py: pdf, logpdf", "mpsci/distributions/laplace.py: pdf, logpdf", "mpsci/distributions/logistic.py: pdf, logpdf", "mpsci/distributions/loglogistic.py: pdf, logpdf", "mpsci/distributions/pareto.py: pdf, logpdf", "mpsci/distributions/uniform.py: pdf, logpdf", "mpsci/distributions/weibull_max.py: pdf, logpdf", "mpsci/distributions/weibull_min.py: pdf, logpdf"]}
{"id": "C05", "title": "invcdf and invsf invert cdf and sf", "statement": "For each listed closed-form continuous distribution that offers them, cdf(invcdf(p)) = p and sf(invsf(p)) = p for 0 < p < 1, and invcdf(cdf(x)) = x, invsf(sf(x)) = x for x in the interior of the support.", "quantifier": "every p in (0, 1), every x in the interior of the support, every valid parameter tuple", "why_tests_cant": "a real-number identity over a continuum of arguments and parameters; tests compare a handful of tabulated values to a tolerance", "anchors": ["mpsci/distributions/benini.py: cdf, sf, invcdf, invsf", "mpsci/distributions/benktander1.py: cdf, sf, invcdf, invsf", "mpsci/distributions/burr12.py: cdf, sf, invcdf, invsf", "mpsci/distributions/cauchy.py: cdf, sf, invcdf, invsf", "mpsci/distributions/cosine.py: cdf, sf, invcdf, invsf", "mpsci/distributions/exponweib.py: cdf, sf, invcdf, invsf", "mpsci/distributions/gamma_gompertz.py: cdf, sf, invcdf, invsf", "mpsci/distributions/genextreme.py: cdf, sf, invcdf, invsf", "mpsci/distributions/genpareto.py: cdf, sf, invcdf, invsf", "mpsci/distributions/gompertz.py: cdf, sf, invcdf, invsf", "mpsci/distributions/gumbel_max.py: cdf, sf, invcdf, invsf", "mpsci/distributions/gumbel_min.py: cdf, sf, invcdf, invsf", "mpsci/distributions/half_logistic.py: cdf, sf, invcdf, invsf", "mpsci/distributions/hypsecant.py: cdf, sf, invcdf, invsf", "mpsci/distributions/kumaraswamy.py: cdf, sf, invcdf, invsf", "mpsci/distributions/laplace.py: cdf, sf, invcdf, invsf", "mpsci/distributions/logistic.py: cdf, sf, invcdf, invsf", "mpsci/distributions/loglogistic.py: cdf, sf, invcdf, invsf", "mpsci/distributions/pareto.py: cdf, sf, invcdf, invsf", "mpsci/distributions/uniform.py: cdf, sf, invcdf, invsf", "mpsci/distributions/weibull_max.py: cdf, sf, invcdf, invsf", "mpsci/distributions/weibull_min.py: cdf, sf, invcdf, invsf"]}
{"id": "C06", "title": "Quantile functions reject p outside [0, 1]", "statement": "invcdf and invsf raise ValueError for every p < 0 and every p > 1, whatever the (valid) parameters. ", "quantifier": "every real p outside [0, 1], every valid parameter tuple, every listed quantile function", "why_tests_cant": "the rejected set is unbounded; tests try one or two points and not every module", "anchors": ["mpsci/distributions/benini.py: invcdf, invsf", "mpsci/distributions/benktander1.py: invcdf, invsf", "mpsci/distributions/burr12.py: invcdf, invsf", "mpsci/distributions/cauchy.py: invcdf, invsf", "mpsci/distributions/cosine.py: invcdf, invsf", "mpsci/distributions/exponweib.py: invcdf, invsf", "mpsci/distributions/gamma_gompertz.py: invcdf, invsf", "mpsci/distributions/genextreme.py: invcdf, invsf", "mpsci/distributions/genpareto.py: invcdf, invsf", "mpsci/distributions/gompertz.py: invcdf, invsf", "mpsci/distributions/gumbel_max.py: invcdf, invsf", "mpsci/distributions/gumbel_min.py: invcdf, invsf", "mpsci/distributions/half_logistic.py: invcdf, invsf", "mpsci/distributions/hypsecant.py: invcdf, invsf", "mpsci/distributions/kumaraswamy.py: invcdf, invsf", "mpsci/distributions/laplace.py: invcdf, invsf", "mpsci/distributions/logistic.py: invcdf, invsf", "mpsci/distributions/loglogistic.py: invcdf, invsf", "mpsci/distributions/pareto.py: invcdf, invsf", "mpsci/distributions/uniform.py: invcdf, invsf", "mpsci/distributions/weibull_max.py: invcdf, invsf", "mpsci/distributions/weibull_min.py: invcdf, invsf", "mpsci/distributions/_common.py: _validate_p"]}
{"id": "C07", "title": "Invalid parameters are rejected, valid ones are not", "statement": "For each listed distribution, pdf, cdf and sf called with real arguments raise ValueError exactly when a scale or shape parameter is outside its documented range (for example scale <= 0), and otherwise return a value.", "quantifier": "every real x and every real parameter tuple, valid or not", "why_tests_cant": "the set of invalid tuples is unbounded and the tests probe at most a few per module", "anchors": ["mpsci/distributions/benini.py: pdf, cdf, sf", "mpsci/distributions/benktander1.py: pdf, cdf, sf", "mpsci/distributions/burr12.py: pdf, cdf, sf", "mpsci/distributions/cauchy.py: pdf, cdf, sf", "mpsci/distributions/cosine.py: pdf, cdf, sf", "mpsci/distributions/exponweib.py: pdf, cdf, sf", "mpsci/distributions/gamma_gompertz.py: pdf, cdf, sf", "mpsci/distributions/genextreme.py: pdf, cdf, sf", "mpsci/distributions/genpareto.py: pdf, cdf, sf", "mpsci/distributions/gompertz.py: pdf, cdf, sf", "mpsci/distributions/gumbel_max.py: pdf, cdf, sf", "mpsci/distributions/gumbel_min.py: pdf, cdf, sf", "mpsci/distributions/half_logistic.py: pdf, cdf, sf", "mpsci/distributions/hypsecant.py: pdf, cdf, sf", "mpsci/distributions/kumaraswamy.py: pdf, cdf, sf", "mpsci/distributions/laplace.py: pdf, cdf, sf", "mpsci/distributions/logistic.py: pdf, cdf, sf", "mpsci/distributions/loglogistic.py: pdf, cdf, sf", "mpsci/distributions/pareto.py: pdf, cdf, sf", "mpsci/distributions/uniform.py: pdf, cdf, sf", "mpsci/distributions/weibull_max.py: pdf, cdf, sf", "mpsci/distributions/weibull_min.py: pdf, cdf, sf", "mpsci/distributions/_common.py: _validate_loc_scale"]}
{"id": "C08", "title": "Location and scale act affinely", "statement": "For each listed distribution with loc and scale, cdf(x; loc, scale) = cdf((x-loc)/scale; 0, 1), sf likewise, and pdf(x; loc, scale) = pdf((x-loc)/scale; 0, 1)/scale.", "quantifier": "every real x, loc, every scale > 0 and every shape tuple", "why_tests_cant": "a real-number identity over a continuum of arguments and parameters; tests compare a handful of tabulated values to a tolerance", "anchors": ["mpsci/distributions/benini.py: pdf, cdf, sf", "mpsci/distributions/benktander1.py: pdf, cdf, sf", "mpsci/distributions/burr12.py: pdf, cdf, sf", "mpsci/distributions/cauchy.py: pdf, cdf, sf", "mpsci/distributions/cosine.py: pdf, cdf, sf", "mpsci/distributions/exponweib.py: pdf, cdf, sf", "mpsci/distributions/gamma_gompertz.py: pdf, cdf, sf", "mpsci/distributions/genextreme.py: pdf, cdf, sf", "mpsci/distributions/genpareto.py: pdf, cdf, sf", "mpsci/distributions/gompertz.py: pdf, cdf, sf", "mpsci/distributions/gumbel_max.py: pdf, cdf, sf", "mpsci/distributions/gumbel_min.py: pdf, cdf, sf", "mpsci/distributions/half_logistic.py: pdf, cdf, sf", "mpsci/distributions/hypsecant.py: pdf, cdf, sf", "mpsci/distributions/kumaraswamy.py: pdf, cdf, sf", "mpsci/distributions/laplace.py: pdf, cdf, sf", "mpsci/distributions/logistic.py: pdf, cdf, sf", "mpsci/distributions/loglogistic.py: pdf, cdf, sf", "mpsci/distributions/pareto.py: pdf, cdf, sf", "mpsci/distributions/uniform.py: pdf, cdf, sf", "mpsci/distributions/weibull_max.py: pdf, cdf, sf", "mpsci/distributions/weibull_min.py: pdf, cdf, sf"]}
{"id": "C09", "title": "mode maximises the density", "statement": "For each listed distribution whose mode() returns a finite number where the density is finite, pdf(y) <= pdf(mode()) for every y.", "quantifier": "every real y and every valid parameter tuple for which the density is bounded", "why_tests_cant": "global optimality quantifies over all competitors y", "anchors": ["mpsci/distributions/benini.py: pdf, mode", "mpsci/distributions/benktander1.py: pdf, mode", "mpsci/distributions/burr12.py: pdf, mode", "mpsci/distributions/cauchy.py: pdf, mode", "mpsci/distributions/exponweib.py: pdf, mode", "mpsci/distributions/gamma_gompertz.py: pdf, mode", "mpsci/distributions/genextreme.py: pdf, mode", "mpsci/distributions/gompertz.py: pdf, mode", "mpsci/distributions/gumbel_max.py: pdf, mode", "mpsci/distributions/gumbel_min.py: pdf, mode", "mpsci/distributions/kumaraswamy.py: pdf, mode", "mpsci/distributions/laplace.py: pdf, mode", "mpsci/distributions/logistic.py: pdf, mode", "mpsci/distributions/loglogistic.py: pdf, mode", "mpsci/distributions/normal.py: pdf, mode", "mpsci/distributions/weibull_max.py: pdf, mode", "mpsci/distributions/weibull_min.py: pdf, mode"]}
{"id": "C10", "title": "median splits the mass in half", "statement": "Where a closed-form distribution offers median(), cdf(median()) = 1/2.", "quantifier": "every valid parameter tuple", "why_tests_cant": "a real-number identity over a continuum of arguments and parameters; tests compare a handful of tabulated values to a tolerance", "anchors": ["mpsci/distributions/benini.py: median, cdf", "mpsci/distributions/burr12.py: median, cdf", "mpsci/distributions/kumaraswamy.py: median, cdf", "mpsci/distributions/normal.py: median, cdf", "mpsci/distributions/truncnorm.py: median, cdf", "mpsci/distributions/uniform.py: median, cdf"]}
{"id": "C11", "title": "Mirror-image distributions agree", "statement": "gumbel_min(x; loc) mirrors gumbel_max(-x; -loc), weibull_max mirrors weibull_min in the same way: pdf, cdf/sf, invcdf/invsf and mean of one are the reflected values of the other; and the symmetric distributions (cauchy, cosine, hypsecant, laplace, logistic, normal, studentt) satisfy cdf(loc + t) = sf(loc - t).", "quantifier": "every real x, t, p and valid parameter tuple", "why_tests_cant": "an identity between two modules over all arguments", "anchors": ["mpsci/distributions/gumbel_min.py", "mpsci/distributions/gumbel_max.py", "mpsci/distributions/weibull_min.py", "mpsci/distributions/weibull_max.py", "mpsci/distributions/cauchy.py", "mpsci/distributions/cosine.py", "mpsci/distributions/hypsecant.py", "mpsci/distributions/laplace.py", "mpsci/distributions/logistic.py"]}
{"id": "C12", "title": "Special cases collapse to simpler distributions", "statement": "genextreme with xi = 0 equals gumbel_max; genpareto with xi = 0 equals the exponential; exponweib with a = 1 equals weibull_min; burr12 with d = 1 equals loglogistic; gamma_gompertz with beta = 1 equals the exponential with rate c/scale; benktander2 with b = 1 equals a shifted exponential; chi2(k) equals gamma(k/2, scale 2); invchi2 equals invgamma with scale 1/2; levy equals invgamma with shape 1/2 and half the scale; loggamma at x equals the standard gamma at exp(x/theta) (cdf, sf); maxwell equals chi with three degrees of freedom; f equals betaprime with half the degrees of freedom and scale dfd/dfn; the reciprocal of a betaprime (or f) variable has the parameters exchanged; studentt with one degree of freedom equals the standard cauchy, and the square of a studentt variable has the f distribution with 1 and df degrees of freedom.", "quantifier": "every real x and every valid value of the remaining parameters", "why_tests_cant": "an identity between two modules over all arguments", "anchors": ["mpsci/distributions/genextreme.py: pdf, cdf, sf", "mpsci/distributions/gumbel_max.py: pdf, cdf, sf", "mpsci/distributions/genpareto.py: pdf, cdf, sf", "mpsci/distributions/exponweib.py: pdf, cdf, sf", "mpsci/distributions/weibull_min.py: pdf, cdf, sf", "mpsci/distributions/burr12.py: pdf, cdf, sf", "mpsci/distributions/loglogistic.py: pdf, cdf, sf", "mpsci/distributions/gamma_gompertz.py: pdf, cdf, sf", "mpsci/distributions/benktander2.py: pdf, cdf, sf", "mpsci/distributions/chi2.py: pdf, cdf, sf", "mpsci/distributions/gamma.py: pdf, cdf, sf", "mpsci/distributions/invchi2.py: pdf, cdf, sf", "mpsci/distributions/invgamma.py: pdf, cdf, sf", "mpsci/distributions/levy.py: pdf, cdf, sf", "mpsci/distributions/loggamma.py: cdf, sf", "mpsci/distributions/maxwell.py: pdf, cdf, sf", "mpsci/distributions/chi.py: pdf, cdf, sf", "mpsci/distributions/f.py: pdf, logpdf, cdf, sf, entropy", "mpsci/distributions/betaprime.py: pdf, logpdf, cdf, sf, entropy"]}
{"id": "C13", "title": "Fisher exact test p-values are exact", "statement": "For a 2x2 table of nonnegative integers fisher_exact with alternative 'less', 'greater', 'two-sided' returns, respectively, the exact conditional probability (given the margins) of the first cell being at most / at least the observed one, and the total probability of all tables no more probable than the observed one.", "quantifier": "every 2x2 table of nonnegative integers and every alternative", "why_tests_cant": "the two-sided code stops scanning at the first more-probable table on each side; that this loses nothing is a unimodality fact about all tables of all sizes", "anchors": ["mpsci/stats/_fisher_exact.py: fisher_exact, _num_combs, _comb"]}
{"id": "C14", "title": "Fisher exact p-values are probabilities and consistent", "statement": "All three p-values lie in (0, 1]; the one-sided p-values satisfy less + greater = 1 + P(observed table); p-values are unchanged when the table is transposed, and swapping the two rows or the two columns swaps 'less' and 'greater'.", "quantifier": "every 2x2 table of nonnegative integers", "why_tests_cant": "quantifies over all integer tables", "anchors": ["mpsci/stats/_fisher_exact.py: fisher_exact"]}
{"id": "C15", "title": "logbinomial is the log of the binomial coefficient", "statement": "logbinomial(n, k) is log C(n, k) for integers 0 <= k <= n and raises ValueError exactly when n < 0, k < 0 or k > n.", "quantifier": "all integers n, k (and all real n, k for the error branches)", "why_tests_cant": "unbounded integers", "anchors": ["mpsci/fun/_logbinomial.py: logbinomial"]}
{"id": "C16", "title": "logsumexp computes log of (weighted) sum of exponentials", "statement": "logsumexp(logs) = log(sum exp(l_i)) and logsumexp(logs, weights) = log(sum w_i exp(l_i)) for any nonempty sequence and positive total weight; the shift by the maximum does not change the value, and shifting all inputs by c shifts the result by c.", "quantifier": "every nonempty list of reals, every weight list of the same length with positive weighted sum", "why_tests_cant": "lists of every length and real entries", "anchors": ["mpsci/fun/_logsumexp.py: logsumexp"]}
{"id": "C17", "title": "Power helpers are mutually inverse", "statement": "inv_pow1pm1(pow1pm1(x, y), y) = x for x > -1, y != 0; pow1pm1(inv_pow1pm1(t, y), y) = t for t > -1; inv_powm1(x**y - 1, y) = x for x > 0; both inverses raise ValueError exactly when y = 0 or t <= -1.", "quantifier": "all reals in the stated ranges", "why_tests_cant": "a real-number identity over a continuum of arguments and parameters; tests compare a handful of tabulated values to a tolerance", "anchors": ["mpsci/fun/_powm1.py: inv_powm1, pow1pm1, inv_pow1pm1", "mpsci/fun/_xlogy.py: xlogy, xlog1py"]}
{"id": "C18", "title": "Box-Cox transforms are invertible and increasing", "statement": "inv_boxcox(boxcox(x, l), l) = x for x > 0 and inv_boxcox1p(boxcox1p(x, l), l) = x for x > -1, for every l; boxcox and boxcox1p are strictly increasing in x; and boxcox(1 + x) = boxcox1p(x).", "quantifier": "all reals lambda and x in the domain", "why_tests_cant": "a real-number identity over a continuum of arguments and parameters; tests compare a handful of tabulated values to a tolerance", "anchors": ["mpsci/stats/_boxcox.py: boxcox, inv_boxcox, boxcox1p, inv_boxcox1p"]}
{"id": "C19", "title": "Yeo-Johnson transform is invertible, increasing and sign preserving", "statement": "inv_yeojohnson(yeojohnson(x, l), l) = x for every real x and l; yeojohnson is strictly increasing in x, maps 0 to 0 and preserves the sign of x.", "quantifier": "all reals x and lambda", "why_tests_cant": "four formula branches meet at x = 0, lambda = 0 and lambda = 2; continuity and inversion across all of them needs a case proof", "anchors": ["mpsci/stats/_yeojohnson.py: yeojohnson, inv_yeojohnson"]}
{"id": "C20", "title": "Means lie between the extremes and respect weights", "statement": "mean, gmean, hmean, and pmean of positive data lie between the smallest and largest value; a constant sequence has that constant as its mean; multiplying all weights by the same positive constant changes nothing; integer weights equal replication of the data.", "quantifier": "every nonempty list of positive reals, every positive weight list, every exponent", "why_tests_cant": "lists of every length", "anchors": ["mpsci/stats/_basic.py: mean, gmean, hmean, pmean"]}
{"id": "C21", "title": "Harmonic <= geometric <= arithmetic mean, and power means increase with p", "statement": "For positive data, hmean(x) <= gmean(x) <= mean(x), and pmean(x, p) <= pmean(x, q) whenever p <= q, including the special-cased exponents -inf, -1, 0, 1, inf.", "quantifier": "every nonempty list of positive reals and every pair of exponents", "why_tests_cant": "inequality over all data sets; special-cased exponents must fit in order with their neighbours", "anchors": ["mpsci/stats/_basic.py: mean, gmean, hmean, pmean"]}
{"id": "C22", "title": "lehmer_mean computes the Lehmer mean for every p", "statement": "lehmer_mean(x, p) equals sum(x_i**p)/sum(x_i**(p-1)) for every finite p and positive data.", "quantifier": "every nonempty list of positive reals and every real p", "why_tests_cant": "the special-cased exponents are isolated points that tests with two-element data cannot tell apart", "anchors": ["mpsci/stats/_basic.py: lehmer_mean"]}
{"id": "C23", "title": "Variance is shift invariant, scale equivariant and nonnegative", "statement": "var(x + c) = var(x), var(c x) = c**2 var(x), var(x) >= 0 with equality exactly for constant data; std is its square root.", "quantifier": "every list of reals with more than ddof elements and every real c", "why_tests_cant": "lists of every length", "anchors": ["mpsci/stats/_basic.py: var, std, variation"]}
{"id": "C24", "title": "unique_counts is a faithful tally", "statement": "unique_counts(x) returns strictly increasing values and positive counts of the same length, and repeating each value by its count gives back a permutation of x; empty input raises ValueError.", "quantifier": "every list over a linear order", "why_tests_cant": "lists of every length and every repetition pattern", "anchors": ["mpsci/stats/_basic.py: unique_counts"]}
{"id": "C25", "title": "pearsonr is a correlation coefficient", "statement": "For equal-length data of length at least 2 with neither sequence constant, pearsonr(x, y) returns r with -1 <= r <= 1, symmetric in x and y, unchanged under increasing affine changes of either argument and negated by decreasing ones, and r = 1 or -1 when y is an affine function of x; constant or too-short input gives nan.", "quantifier": "all pairs of equal-length real lists and all affine maps", "why_tests_cant": "lists of every length", "anchors": ["mpsci/stats/_pearsonr.py: pearsonr"]}
{"id": "C26", "title": "One-way ANOVA decomposition", "statement": "The F statistic of anova_oneway is (between/(k-1))/(within/(n-k)) with within = sum of squared deviations from the group means; it is nonnegative, unchanged by shifting all data or multiplying by a nonzero constant, and by reordering groups or values.", "quantifier": "every list of at least two nonempty groups with nonzero within-group variation", "why_tests_cant": "groups of every number and size", "anchors": ["mpsci/stats/_anova.py: anova_oneway"]}
{"id": "C27", "title": "Goodness-of-fit statistics", "statement": "chisquare's statistic is nonnegative and is 0 exactly when observed equals expected; gtest's statistic is nonnegative (for observed and expected with equal totals, as the code requires); unequal totals raise ValueError.", "quantifier": "every pair of equal-length lists of positive reals", "why_tests_cant": "inequality (Gibbs) over all lists", "anchors": ["mpsci/stats/_goftests.py: chisquare, gtest"]}
{"id": "C28", "title": "Bracket search returns a bracket", "statement": "For a strictly monotone function that crosses p, the bracket searches used by the numerical quantile functions terminate and return (lo, hi) with lo <= hi and the solution of func(x) = p inside [lo, hi], whichever ends of the domain are infinite.", "quantifier": "every strictly monotone function on the domain, every p it attains in the interior, every domain", "why_tests_cant": "termination and correctness of while-loops over an arbitrary function", "anchors": ["mpsci/distributions/_common.py: _find_bracket, _find_bracket_by_expansion_neginf_inf, _find_bracket_by_expansion_0_inf"]}
{"id": "C29", "title": "Data with counts means replicated data", "statement": "For the distributions whose nll accepts counts, nll(x, params, counts=c) equals nll of the data set in which each x_i is repeated c_i times; counts of the wrong length, negative or non-integral raise ValueError.", "quantifier": "every data list, every list of nonnegative integer counts, every valid parameter tuple", "why_tests_cant": "lists of every length", "anchors": ["mpsci/distributions/_common.py: _validate_counts", "mpsci/distributions/betabinomial.py: nll", "mpsci/distributions/binomial.py: nll", "mpsci/distributions/logseries.py: nll", "mpsci/distributions/negative_binomial.py: nll", "mpsci/distributions/poisson.py: nll"]}
{"id": "C30", "title": "nll is the negative sum of logpdf", "statement": "For the distributions that offer nll, nll(x, params) = -sum(logpdf(x_i, params)) for data in the support.", "quantifier": "every data list in the support and valid parameter tuple", "why_tests_cant": "lists of every length", "anchors": ["mpsci/distributions/benktander1.py: nll, logpdf", "mpsci/distributions/burr12.py: nll, logpdf", "mpsci/distributions/gamma.py: nll, logpdf", "mpsci/distributions/gompertz.py: nll, logpdf", "mpsci/distributions/gumbel_max.py: nll, logpdf", "mpsci/distributions/gumbel_min.py: nll, logpdf", "mpsci/distributions/kumaraswamy.py: nll, logpdf", "mpsci/distributions/laplace.py: nll, logpdf", "mpsci/distributions/lognormal.py: nll, logpdf", "mpsci/distributions/normal.py: nll, logpdf", "mpsci/distributions/pareto.py: nll, logpdf", "mpsci/distributions/poisson.py: nll, logpdf", "mpsci/distributions/uniform.py: nll, logpdf", "mpsci/distributions/weibull_max.py: nll, logpdf", "mpsci/distributions/weibull_min.py: nll, logpdf"]}
{"id": "C31", "title": "Closed-form maximum likelihood estimates are global maximisers", "statement": "For normal, lognormal, laplace, uniform, poisson, pareto (loc known), and the partially fixed cases of gamma, weibull, kumaraswamy, burr12, gumbel, gompertz and binomial that mle solves in closed form, nll at the estimate is at most nll at any other admissible parameter value.", "quantifier": "every admissible data list and every competing parameter value", "why_tests_cant": "optimality over all data sets and all competitors", "anchors": ["mpsci/distributions/normal.py: mle, nll", "mpsci/distributions/lognormal.py: mle, nll", "mpsci/distributions/laplace.py: mle, nll", "mpsci/distributions/uniform.py: mle, nll", "mpsci/distributions/poisson.py: mle, nll", "mpsci/distributions/pareto.py: mle, nll", "mpsci/distributions/gamma.py: mle, nll", "mpsci/distributions/kumaraswamy.py: mle, nll", "mpsci/distributions/burr12.py: mle, nll", "mpsci/distributions/gumbel_max.py: mle, nll", "mpsci/distributions/gumbel_min.py: mle, nll", "mpsci/distributions/gompertz.py: mle, nll", "mpsci/distributions/binomial.py: mle, nll", "mpsci/distributions/_weibull_common.py"]}
{"id": "C32", "title": "Method-of-moments estimates reproduce the sample moments", "statement": "The distribution with the parameters returned by mom(x) has mean equal to the sample mean and variance equal to the (population) sample variance (beta, gamma, gumbel_max, gumbel_min, laplace, logistic, lognormal, uniform).", "quantifier": "every data list whose values are not all equal (for beta and gamma: inside the support)", "why_tests_cant": "lists of every length", "anchors": ["mpsci/distributions/beta.py: mom", "mpsci/distributions/gamma.py: mom", "mpsci/distributions/gumbel_max.py: mom", "mpsci/distributions/gumbel_min.py: mom", "mpsci/distributions/laplace.py: mom", "mpsci/distributions/logistic.py: mom", "mpsci/distributions/lognormal.py: mom", "mpsci/distributions/uniform.py: mom"]}
{"id": "C33", "title": "pmf of the discrete distributions is a probability mass function", "statement": "For binomial, poisson, hypergeometric, negative_hypergeometric, betabinomial, logseries, trunc_discrete_exp, gauss_kuzmin, fishers_noncentral_hypergeometric: pmf is nonnegative, zero outside the support and sums to 1 over it.", "quantifier": "every valid parameter tuple; the sum runs over the full (possibly infinite) support", "why_tests_cant": "infinite or arbitrarily large supports", "anchors": ["mpsci/distributions/binomial.py: pmf, support", "mpsci/distributions/poisson.py: pmf, support", "mpsci/distributions/hypergeometric.py: pmf, support", "mpsci/distributions/negative_hypergeometric.py: pmf, support", "mpsci/distributions/betabinomial.py: pmf, support", "mpsci/distributions/logseries.py: pmf, support", "mpsci/distributions/trunc_discrete_exp.py: pmf, support", "mpsci/distributions/gauss_kuzmin.py: pmf, support", "mpsci/distributions/fishers_noncentral_hypergeometric.py: pmf, support"]}
{"id": "C34", "title": "Discrete cdf and sf are the sums of pmf", "statement": "For the discrete distributions with closed-form or summed cdf, cdf(k) is the sum of pmf over values at most k and sf(k) the sum over values greater than k.", "quantifier": "every integer k and valid parameter tuple", "why_tests_cant": "unbounded integers", "anchors": ["mpsci/distributions/binomial.py: pmf, cdf, sf", "mpsci/distributions/poisson.py: pmf, cdf, sf", "mpsci/distributions/hypergeometric.py: pmf, cdf, sf", "mpsci/distributions/trunc_discrete_exp.py: pmf, cdf, sf", "mpsci/distributions/gauss_kuzmin.py: pmf, cdf, sf", "mpsci/distributions/fishers_noncentral_hypergeometric.py: pmf, cdf, sf"]}
{"id": "C35", "title": "logpmf is the logarithm of pmf", "statement": "For the discrete distributions, logpmf(k) = log(pmf(k)) on the support and -inf where pmf(k) is 0.", "quantifier": "every integer k and valid parameter tuple", "why_tests_cant": "unbounded integers and real parameters", "anchors": ["mpsci/distributions/binomial.py: pmf, logpmf", "mpsci/distributions/poisson.py: pmf, logpmf", "mpsci/distributions/hypergeometric.py: pmf, logpmf", "mpsci/distributions/negative_hypergeometric.py: pmf, logpmf", "mpsci/distributions/negative_binomial.py: pmf, logpmf", "mpsci/distributions/betabinomial.py: pmf, logpmf", "mpsci/distributions/logseries.py: pmf, logpmf", "mpsci/distributions/trunc_discrete_exp.py: pmf, logpmf", "mpsci/distributions/gauss_kuzmin.py: pmf, logpmf"]}
{"id": "C36", "title": "Discrete mode maximises pmf", "statement": "mode() of the discrete distributions returns a point of the support where pmf is largest: the smaller one when there are two, except that fishers_noncentral_hypergeometric.mode returns the larger one, as its documentation says.", "quantifier": "every integer competitor and every valid parameter tuple", "why_tests_cant": "global optimality; ties depend on integrality of a real expression", "anchors": ["mpsci/distributions/binomial.py: mode", "mpsci/distributions/poisson.py: mode", "mpsci/distributions/hypergeometric.py: mode", "mpsci/distributions/negative_hypergeometric.py: mode", "mpsci/distributions/negative_binomial.py: mode", "mpsci/distributions/betabinomial.py: mode", "mpsci/distributions/trunc_discrete_exp.py: mode"]}
{"id": "C37", "title": "Means and variances are the true moments", "statement": "Where a closed form is given, mean() and var() equal the first moment and the central second moment of the distribution described by pdf/pmf.", "quantifier": "every valid parameter tuple for which the moments exist", "why_tests_cant": "a real-number identity over a continuum of arguments and parameters; tests compare a handful of tabulated values to a tolerance", "anchors": ["mpsci/distributions/uniform.py: mean, var", "mpsci/distributions/pareto.py: mean, var", "mpsci/distributions/laplace.py: mean, var", "mpsci/distributions/binomial.py: mean, var", "mpsci/distributions/poisson.py: mean, var", "mpsci/distributions/hypergeometric.py: mean, var", "mpsci/distributions/trunc_discrete_exp.py: mean, var", "mpsci/distributions/weibull_min.py: mean, var", "mpsci/distributions/gamma.py: mean, var", "mpsci/distributions/beta.py: mean, var", "mpsci/distributions/normal.py: mean, var", "mpsci/distributions/kumaraswamy.py: mean, var"]}
{"id": "C38", "title": "Multivariate hypergeometric support and pmf", "statement": "support(colors, nsample) yields each vector k with 0 <= k_i <= colors_i and sum k_i = nsample exactly once and nothing else, and pmf sums to 1 over it; pmf is 0 off the support.", "quantifier": "every list of nonnegative colour counts and every nsample", "why_tests_cant": "unbounded dimension and counts", "anchors": ["mpsci/distributions/multivariate_hypergeometric.py: support, pmf, logpmf, mean, cov"]}
{"id": "C39", "title": "Sample and conditional odds ratio", "statement": "odds_ratio validates its table, returns nan when a row or column total is zero, otherwise the sample odds ratio ad/(bc) (inf when bc = 0), or for kind 'conditional' 0 / inf at the ends of the support; confidence intervals can be computed from the result.", "quantifier": "every 2x2 table of nonnegative integers", "why_tests_cant": "all tables; the zero cells are corner cases of two different kinds", "anchors": ["mpsci/stats/_odds_ratio.py: odds_ratio, OddsRatioResult, _sample_odds_ratio, _sample_odds_ratio_ci"]}
{"id": "C40", "title": "interval_prob is the probability of the interval", "statement": "Where offered, interval_prob(x1, x2) = cdf(x2) - cdf(x1) for x1 <= x2, and x1 > x2 raises ValueError.", "quantifier": "every real pair and valid parameter tuple", "why_tests_cant": "the code switches between cdf and sf differences and their log forms by position relative to the centre", "anchors": ["mpsci/distributions/beta.py: interval_prob", "mpsci/distributions/gamma.py: interval_prob", "mpsci/distributions/laplace.py: interval_prob", "mpsci/distributions/loggamma.py: interval_prob"]}
{"id": "C41", "title": "Quantile functions return the ends of the support at p = 0 and p = 1", "statement": "invcdf(0) = invsf(1) = left end of the support and invcdf(1) = invsf(0) = right end.", "quantifier": "every valid parameter tuple of every distribution with a quantile function", "why_tests_cant": "per-module corner cases at infinitely many parameter values", "anchors": ["mpsci/distributions/betaprime.py: invcdf, invsf", "mpsci/distributions/maxwell.py: invcdf, invsf", "mpsci/distributions/pareto.py: invcdf, invsf", "mpsci/distributions/burr12.py: invcdf, invsf", "mpsci/distributions/gamma_gompertz.py: invcdf, invsf", "mpsci/distributions/cauchy.py: invcdf, invsf", "mpsci/distributions/f.py: invcdf, invsf", "mpsci/distributions/levy.py: invcdf, invsf", "mpsci/distributions/weibull_min.py: invcdf, invsf", "mpsci/distributions/weibull_max.py: invcdf, invsf", "mpsci/distributions/gumbel_max.py: invcdf, invsf", "mpsci/distributions/gumbel_min.py: invcdf, invsf", "mpsci/distributions/logistic.py: invcdf, invsf", "mpsci/distributions/uniform.py: invcdf, invsf", "mpsci/distributions/kumaraswamy.py: invcdf, invsf", "mpsci/distributions/benini.py: invcdf, invsf"]}
{"id": "C42", "title": "logpdf agrees with pdf for the remaining modules", "statement": "logpdf(x) = log(pdf(x)) also for genexpon, gamma, chi, chi2, kumaraswamy and exponweib at every point where pdf is finite and positive, including the left end of the support.", "quantifier": "every real x and valid parameter tuple", "why_tests_cant": "violations sit at isolated points or need scale != 1", "anchors": ["mpsci/distributions/genexpon.py: pdf, logpdf", "mpsci/distributions/gamma.py: pdf, logpdf", "mpsci/distributions/chi.py: pdf, logpdf", "mpsci/distributions/chi2.py: pdf, logpdf", "mpsci/distributions/kumaraswamy.py: pdf, logpdf", "mpsci/distributions/exponweib.py: pdf, logpdf"]}
{"id": "C43", "title": "Gamma likelihood derivatives", "statement": "gamma.nll_grad is the gradient and gamma.nll_hess the Hessian of gamma.nll in (k, scale), and nll_invhess is the matrix inverse of nll_hess.", "quantifier": "every nonempty list of positive data and every positive k, scale", "why_tests_cant": "symbolic derivative over all data", "anchors": ["mpsci/distributions/gamma.py: nll, nll_grad, nll_hess, nll_invhess"]}
{"id": "C44", "title": "Cached Fisher noncentral hypergeometric tables are not corrupted by callers", "statement": "The results of fishers_noncentral_hypergeometric.pmf, cdf, sf, mean depend only on their arguments, whatever the caller did earlier with values returned by the module.", "quantifier": "every history of calls and of caller-side mutations of returned lists", "why_tests_cant": "history property: tests do not mutate returned values between calls", "anchors": ["mpsci/distributions/fishers_noncentral_hypergeometric.py: support_pmf, pmf, cdf, sf, mean"]}
{"id": "C45", "title": "Dirichlet mean and covariance", "statement": "dirichlet.mean sums to 1, cov is symmetric with rows summing to 0, its diagonal entries are r(1-r)/(a0+1) with r the mean and a0 the total concentration, and it is positive semidefinite.", "quantifier": "every list of positive concentration parameters", "why_tests_cant": "unbounded dimension", "anchors": ["mpsci/distributions/dirichlet.py: mean, cov"]}
{"id": "C46", "title": "Bisection root finder terminates with a bracketed sign change", "statement": "The bisection used by betaincinv ends for every function and every starting bracket, and the returned point separates a sign change (or is an exact zero).", "quantifier": "every function with a sign change on a finite grid of representable numbers", "why_tests_cant": "termination of a while-loop whose exit test is equality of rounded midpoints", "anchors": ["mpsci/fun/_inv_reg_inc_beta.py: mp_bisect, betaincinv"]}
{"id": "C47", "title": "Noncentral t moment polynomials are the Gaussian derivative polynomials", "statement": "The polynomial used by nct.noncentral_moment(n, df, nc) is, for every order n, the one the documentation names: exp(-x**2/2) * (d/dx)^n exp(x**2/2) evaluated at x = nc.", "quantifier": "every order n and every real nc", "why_tests_cant": "unbounded order; the list code relies on the two leading coefficients being 0 and 1 at every order", "anchors": ["mpsci/distributions/nct.py: _poly_coeffs, noncentral_moment"]}
{"id": "C48", "title": "Infinite arguments", "statement": "For each listed closed-form continuous distribution, cdf(-inf) = 0, cdf(inf) = 1, sf(-inf) = 1 and sf(inf) = 0: no nan and no exception.", "quantifier": "every valid parameter tuple", "why_tests_cant": "the formula must not hit inf - inf, 0*inf or inf/inf for any parameter value", "anchors": ["mpsci/distributions/benini.py: cdf, sf", "mpsci/distributions/benktander1.py: cdf, sf", "mpsci/distributions/burr12.py: cdf, sf", "mpsci/distributions/cauchy.py: cdf, sf", "mpsci/distributions/cosine.py: cdf, sf", "mpsci/distributions/exponweib.py: cdf, sf", "mpsci/distributions/gamma_gompertz.py: cdf, sf", "mpsci/distributions/genextreme.py: cdf, sf", "mpsci/distributions/genpareto.py: cdf, sf", "mpsci/distributions/gompertz.py: cdf, sf", "mpsci/distributions/gumbel_max.py: cdf, sf", "mpsci/distributions/gumbel_min.py: cdf, sf", "mpsci/distributions/half_logistic.py: cdf, sf", "mpsci/distributions/hypsecant.py: cdf, sf", "mpsci/distributions/kumaraswamy.py: cdf, sf", "mpsci/distributions/laplace.py: cdf, sf", "mpsci/distributions/logistic.py: cdf, sf", "mpsci/distributions/loglogistic.py: cdf, sf", "mpsci/distributions/pareto.py: cdf, sf", "mpsci/distributions/uniform.py: cdf, sf", "mpsci/distributions/weibull_max.py: cdf, sf", "mpsci/distributions/weibull_min.py: cdf, sf"]}
{"id": "C49", "title": "pearsonr p-values are consistent", "statement": "For at least three data pairs the p-values of pearsonr for the alternatives 'less' and 'greater' add up to 1, the two-sided p-value is twice the smaller of the two, and all lie in [0, 1].", "quantifier": "all pairs of equal-length nonconstant real lists with at least three entries", "why_tests_cant": "needs the reflection formula of the regularised incomplete beta function for every half-integer parameter and every r", "anchors": ["mpsci/stats/_pearsonr.py: pearsonr"]}
{"id": "C50", "title": "noncentral_moment agrees with mean and var", "statement": "Where a distribution offers noncentral_moment, mean() = noncentral_moment(1) and var() = noncentral_moment(2) - noncentral_moment(1)**2 whenever these moments exist; and noncentral_moment(0) = 1.", "quantifier": "every valid parameter tuple for which the moments exist", "why_tests_cant": "a real-number identity over a continuum of arguments and parameters; tests compare a handful of tabulated values to a tolerance", "anchors": ["mpsci/distributions/benini.py: noncentral_moment, mean, var", "mpsci/distributions/beta.py: noncentral_moment, mean, var", "mpsci/distributions/betaprime.py: noncentral_moment, mean, var", "mpsci/distributions/chi.py: noncentral_moment, mean, var", "mpsci/distributions/chi2.py: noncentral_moment, mean, var", "mpsci/distributions/exponweib.py: noncentral_moment, mean, var", "mpsci/distributions/gamma.py: noncentral_moment, mean, var", "mpsci/distributions/genextreme.py: noncentral_moment, mean, var", "mpsci/distributions/invgamma.py: noncentral_moment, mean, var", "mpsci/distributions/invgauss.py: noncentral_moment, mean, var", "mpsci/distributions/kumaraswamy.py: noncentral_moment, mean, var", "mpsci/distributions/loglogistic.py: noncentral_moment, mean, var", "mpsci/distributions/lognormal.py: noncentral_moment, mean, var", "mpsci/distributions/nct.py: noncentral_moment, mean, var", "mpsci/distributions/rel_breitwigner.py: noncentral_moment, mean, var", "mpsci/distributions/rice.py: noncentral_moment, mean, var", "mpsci/distributions/tukeylambda.py: noncentral_moment, mean, var", "mpsci/distributions/uniform.py: noncentral_moment, mean, var", "mpsci/distributions/weibull_max.py: noncentral_moment, mean, var", "mpsci/distributions/weibull_min.py: noncentral_moment, mean, var"]}
{"id": "C51", "title": "logcdf and logsf are the logs of cdf and sf", "statement": "Where a distribution offers logcdf or logsf, for every valid parameter tuple and every real x, logcdf(x) is the natural log of cdf(x) (-inf where cdf is 0) and logsf(x) is the natural log of sf(x) (-inf where sf is 0).", "quantifier": "every valid parameter tuple and every real x", "why_tests_cant": "a real-number identity over a continuum of arguments and parameters; tests compare a handful of tabulated values to a tolerance", "anchors": ["mpsci/distributions/benini.py: logcdf, logsf, cdf, sf", "mpsci/distributions/burr12.py: logcdf, logsf, cdf, sf", "mpsci/distributions/genextreme.py: logcdf, logsf, cdf, sf", "mpsci/distributions/invgauss.py: logcdf, logsf, cdf, sf"]}
{"id": "C52", "title": "digammainv inverts the digamma function", "statement": "For every real y, digammainv(y) is the positive number x with digamma(x) = y.", "quantifier": "every real y", "why_tests_cant": "a continuum of arguments, three formulas for the starting interval whose validity is an inequality over an interval of y", "anchors": ["mpsci/fun/_digammainv.py: digammainv"]}
{"id": "C53", "title": "chi2.invcdf_k and invsf_k solve for the degrees of freedom", "statement": "For x > 0 and 0 < p < 1, chi2.invcdf_k(x, p) ends and returns the one k > 0 with cdf(x, k) = p, and chi2.invsf_k(x, p) ends and returns the one k > 0 with sf(x, k) = p.", "quantifier": "every real x > 0 and every real p with 0 < p < 1", "why_tests_cant": "needs strict monotonicity and the limits of the distribution function in its shape parameter, and termination of a search for every argument", "anchors": ["mpsci/distributions/chi2.py: invcdf_k, invsf_k, cdf, sf"]}
{"id": "C54", "title": "The Box-Cox and Yeo-Johnson likelihoods are profile log-likelihoods", "statement": "For data that are not all equal (and positive, for Box-Cox), boxcox_llf(lam, x) and yeojohnson_llf(lam, x) are, up to the constant n/2*(1 + log(2*pi)), the largest value over all means and standard deviations of the log-likelihood of the data when the transformed data are normal; boxcox_mle and yeojohnson_mle return a stationary point of that function of lam. Empty data raise; constant data give inf.", "quantifier": "every real lam, every finite list of data", "why_tests_cant": "a maximum over a two-parameter family for every list of data and every lam, including the limits lam = 0 and lam = 2", "anchors": ["mpsci/stats/_boxcox_mle.py: boxcox_llf, boxcox_mle", "mpsci/stats/_yeojohnson_mle.py: yeojohnson_llf, yeojohnson_mle"]}
{"id": "C55", "title": "pearsonr_ci returns the confidence interval of Fisher's transformation", "statement": "For -1 < r < 1, n > 3 and 0 < alpha < 1, the ends lo < r < hi of pearsonr_ci(r, n, alpha) lie in (-1, 1) and are the points whose Fisher transform (atanh) is at normal probability alpha/2 and 1 - alpha/2 around atanh(r) with standard error 1/sqrt(n-3); the one-sided intervals end at -1 or 1 and have the other end at probability 1 - alpha or alpha. Other values of alternative raise ValueError, and alpha outside (0, 1) is rejected.", "quantifier": "every real r, n, alpha in the given ranges and the three alternatives", "why_tests_cant": "three real arguments ranging over a continuum; containment and nesting of the intervals", "anchors": ["mpsci/stats/_pearsonr.py: pearsonr_ci"]}
{"id": "C56", "title": "The von Mises distribution is a density on the circle with the stated circular mean, variance and entropy", "statement": "For every real kappa and mu, vonmises.pdf is a nonnegative 2*pi-periodic function that integrates to 1 over the interval support() returns, and entropy is minus the integral of pdf*log(pdf) over it. For kappa > 0, circmean is the direction of the vector (E cos x, E sin x) and circvar is 1 minus its length. kappa < 0 is rejected.", "quantifier": "every real kappa, mu and x", "why_tests_cant": "integrals over a continuum for every value of two real parameters", "anchors": ["mpsci/distributions/vonmises.py: pdf, logpdf, circmean, circvar, support, entropy"]}
{"id": "C57", "title": "hermite_e is the probabilists' Hermite polynomial", "statement": "For every natural n and real x, hermite_e(n, x) equals (-1)^n e^(x^2/2) times the n-th derivative of e^(-x^2/2) at x; in particular He_0 = 1, He_1 = x and He_(n+2) = x He_(n+1) - (n+1) He_n.", "quantifier": "every natural n, every real x", "why_tests_cant": "an infinite family of polynomials, each at every real number", "anchors": ["mpsci/fun/_hermite_e.py: hermite_e"]}
{"id": "C58", "title": "Spherical Bessel functions satisfy their recurrences and closed forms", "statement": "For z > 0, the spherical Bessel functions j, y, i, k of orders 0 and -1 are the elementary functions sin z/z, -cos z/z, sinh z/z, (pi/2) e^(-z)/z (order -1: cos z/z, sin z/z, cosh z/z, and k again), and neighbouring orders satisfy f(n-1) + f(n+1) = (2n+1)/z f(n) for j and y, i(n-1) - i(n+1) = (2n+1)/z i(n), k(n+1) - k(n-1) = (2n+1)/z k(n).", "quantifier": "every order (every integer order for y), every z > 0", "why_tests_cant": "every order and a continuum of arguments", "anchors": ["mpsci/fun/_spherical_bessel.py: spherical_besselj, spherical_bessely, spherical_besseli, spherical_besselk"]}
{"id": "C59", "title": "wright_bessel is the sum of Wright's series", "statement": "For rho > -1 and real beta and z, wright_bessel(z, rho, beta) is the sum over k of z^k/(k! Gamma(rho k + beta)), where terms at the poles of the gamma function are 0; all the special cases in the code (z = 0, rho = 0, rho = 1) agree with the series. rho <= -1 raises ValueError.", "quantifier": "every real z, rho > -1 and beta", "why_tests_cant": "three real arguments, an infinite series, and shortcuts that must agree with it", "anchors": ["mpsci/fun/_wright_bessel.py: wright_bessel"]}
{"id": "C60", "title": "roots_legendre gives the Gauss-Legendre rule", "statement": "For n >= 1, roots_legendre(n) returns n nodes in (-1, 1) in increasing order and n positive weights such that the quadrature is exact for every polynomial of degree below 2n. n < 1 raises ValueError.", "quantifier": "every n >= 1, every polynomial of degree below 2n", "why_tests_cant": "exactness quantifies over all polynomials", "anchors": ["mpsci/fun/_legendre.py: roots_legendre"]}
{"id": "C61", "title": "debye is the Debye function, by either method", "statement": "For n >= 1 and x != 0, debye(x, n) is n/x^n times the integral of t^n/(e^t - 1) from 0 to x; for 0 < |x| < 2 pi the method 'nsum' gives the same number; debye(0, n) = 1 is the limit. n < 1 or an unknown method raises ValueError.", "quantifier": "every n >= 1, every real x", "why_tests_cant": "agreement of an integral and an infinite series on an interval of arguments for every order", "anchors": ["mpsci/fun/_debye.py: debye"]}
{"id": "C62", "title": "Marcum's Q function and its complement are tail and distribution function of one distribution", "statement": "For m > 0, a >= 0 and b >= 0, marcumq(m, a, b) + cmarcumq(m, a, b) = 1; cmarcumq(m, a, .) is a continuous distribution function on [0, inf) whose density is x (x/a)^(m-1) e^(-(x^2+a^2)/2) I_(m-1)(a x); the shortcuts for a = 0 and b = 0 agree with the integral.", "quantifier": "every real m > 0, a >= 0, b >= 0", "why_tests_cant": "three real arguments; normalisation of an integral with a Bessel function", "anchors": ["mpsci/fun/_marcumq.py: marcumq, cmarcumq"]}
{"id": "C63", "title": "The noncentral chi-square, Rice and noncentral F distributions", "statement": "For k > 0, lam > 0: ncx2.pdf is the density of ncx2.cdf, sf its complement, mean and var its mean and variance. For nu >= 0, sigma > 0: the same for rice, logpdf is the logarithm of pdf, noncentral_moment(n) is the n-th moment for every n, rice.cdf(x, nu, sigma) = ncx2.cdf((x/sigma)^2, 2, (nu/sigma)^2), and the equation solved by rice.mode has exactly one positive root, where pdf is largest. For dfn, dfd, nc > 0: ncf.pdf is the density of ncf.cdf; mean and var are its mean and variance if dfd > 2 and dfd > 4, and are nan exactly where these do not exist.", "quantifier": "every real x and every parameter tuple in the stated ranges", "why_tests_cant": "integrals of Bessel functions and infinite series over a continuum of arguments and parameters; non-existence of moments", "anchors": ["mpsci/distributions/ncx2.py: pdf, cdf, sf, mean, var", "mpsci/distributions/rice.py: pdf, logpdf, cdf, sf, mode, mean, var, noncentral_moment", "mpsci/distributions/ncf.py: pdf, cdf, mean, var"]}
{"id": "C64", "title": "The noncentral t density and its moments", "statement": "For df > 0 and nc != 0, nct.pdf is finite for every real x on both sides of 0, nonnegative, has integral 1, and is the density of (Z + nc)/(S/sqrt(df)) with Z standard normal (normal.cdf) and S chi distributed with df degrees of freedom (chi.pdf), independent; nct.logpdf is its logarithm; pdf(-x, df, nc) = pdf(x, df, -nc). nct.noncentral_moment(n, df, nc) is the integral of x**n against pdf for every order 0 <= n < df, and is nan exactly for the orders for which this integral does not exist; nct.mean (nc > 0) and nct.var are the mean and variance of pdf.", "quantifier": "all real x, all df > 0, all nc != 0, all orders n", "why_tests_cant": "The tests compare a few values with reference numbers; no finite set of points shows that an infinite series of Gamma ratios sums to a density for all parameters or that a polynomial recursion produces its true moments.", "anchors": ["mpsci/distributions/nct.py:pdf", "mpsci/distributions/nct.py:logpdf", "mpsci/distributions/nct.py:noncentral_moment", "mpsci/distributions/nct.py:mean", "mpsci/distributions/nct.py:var", "mpsci/distributions/nct.py:support"]}
{"id": "C65", "title": "The Dirichlet density", "statement": "For every number of components and all positive alpha: dirichlet.pdf is a probability density on the simplex (integral 1 over the first n coordinates), logpdf is its logarithm, dirichlet.mean and dirichlet.cov are its mean vector and covariance matrix, dirichlet.entropy is its differential entropy, and with two components pdf([x, 1-x], [a, b]) = beta.pdf(x, a, b). Points with a negative component, with a sum different from 1 by more than the tolerance, or with another number of components than alpha raise ValueError.", "quantifier": "every dimension, every alpha with positive entries, every point of the open simplex", "why_tests_cant": "an integral over a simplex of arbitrary dimension; the tests check a handful of values in dimensions 2 and 3", "anchors": ["mpsci/distributions/dirichlet.py: _validate_x, _validate_x_alpha, logpdf, pdf, mean, cov, entropy", "mpsci/fun/_logbeta.py: multivariate_logbeta"]}
{"id": "C66", "title": "The multivariate t density", "statement": "For every dimension, nu > 0, every location vector and every positive definite scale matrix: multivariate_t.pdf is a probability density on R^p (nonnegative, integral 1), logpdf is its logarithm, with or without the inverse matrix passed in, entropy is its differential entropy; it is symmetric about the location and largest there, shifts with the location, and in dimension 1 equals the (scaled) density of studentt. A singular scale matrix raises ZeroDivisionError.", "quantifier": "every dimension p, every x and loc in R^p, every nu > 0, every positive definite p x p matrix", "why_tests_cant": "an integral over R^p for arbitrary p and an arbitrary matrix; the tests compare single values in dimensions 2 and 3", "anchors": ["mpsci/distributions/multivariate_t.py: logpdf, pdf, entropy"]}
{"id": "C67", "title": "Standard errors and confidence intervals of the gamma fit", "statement": "For valid k, theta: gamma._nll_invhess_diag returns the diagonal of the inverse of gamma.nll_hess; _mle_se returns the square roots of that diagonal, and these exist and are positive wherever the derivative of the likelihood in the scale vanishes, in particular at the maximum; _mle_ci returns intervals centred at k and theta reaching z standard errors to each side, with normal.cdf(z) = 1 - alpha/2. A singular Hessian raises ZeroDivisionError, invalid parameters or alpha outside [0, 2] raise ValueError.", "quantifier": "every nonempty sample of positive numbers, all k > 0, theta > 0, all alpha in (0, 2)", "why_tests_cant": "positive definiteness of the Hessian at every stationary point depends on an inequality for the trigamma function on (0, oo)", "anchors": ["mpsci/distributions/gamma.py:_nll_invhess_diag", "mpsci/distributions/gamma.py:_mle_se", "mpsci/distributions/gamma.py:_mle_ci"]}
{"id": "C68", "title": "Infinite supports", "statement": "support of poisson, negative_binomial, logseries and gauss_kuzmin yields, in increasing order, every integer with positive pmf and nothing else; parameters that pmf rejects are rejected by support as well.", "quantifier": "all parameters, all integers, the whole infinite sequence", "why_tests_cant": "an infinite iterator against positivity of the pmf at every integer", "anchors": ["mpsci/distributions/poisson.py:support", "mpsci/distributions/negative_binomial.py:support", "mpsci/distributions/logseries.py:support", "mpsci/distributions/gauss_kuzmin.py:support"]}
{"id": "C69", "title": "The Faddeeva function", "statement": "faddeevaw is the entire function with faddeevaw(0) = 1 and derivative -2 z faddeevaw(z) + 2i/sqrt(pi), the only one; faddeevaw(-z) is the conjugate of faddeevaw at conj(z) (the identity of the docstring), faddeevaw(z) + faddeevaw(-z) = 2 exp(-z**2); on the real axis its real part is exp(-x**2); on the imaginary axis it is the real number exp(y**2) erfc(y).", "quantifier": "all complex z", "why_tests_cant": "identities over the whole complex plane", "anchors": ["mpsci/fun/_faddeevaw.py:faddeevaw"]}
{"id": "C70", "title": "support returns the ends of the distribution", "statement": "For every continuous distribution that offers it, support(params) returns (lo, hi) with cdf(x) > 0 exactly when x > lo and cdf(x) < 1 exactly when x < hi: all the mass lies between the two numbers and no closer pair will do.", "quantifier": "all valid parameters, all real x", "why_tests_cant": "a statement about the sign of cdf at every real x; near the ends the values underflow any sample", "anchors": ["mpsci/distributions/argus.py:support", "mpsci/distributions/benini.py:support", "mpsci/distributions/benktander1.py:support", "mpsci/distributions/benktander2.py:support", "mpsci/distributions/beta.py:support", "mpsci/distributions/betaprime.py:support", "mpsci/distributions/burr12.py:support", "mpsci/distributions/cauchy.py:support", "mpsci/distributions/chi.py:support", "mpsci/distributions/chi2.py:support", "mpsci/distributions/cosine.py:support", "mpsci/distributions/exponweib.py:support", "mpsci/distributions/f.py:support", "mpsci/distributions/folded_normal.py:support", "mpsci/distributions/gamma.py:support", "mpsci/distributions/gamma_gompertz.py:support", "mpsci/distributions/genexpon.py:support", "mpsci/distributions/genextreme.py:support", "mpsci/distributions/genhyperbolic.py:support", "mpsci/distributions/geninvgauss.py:support", "mpsci/distributions/genpareto.py:support", "mpsci/distributions/gompertz.py:support", "mpsci/distributions/gumbel_max.py:support", "mpsci/distributions/gumbel_min.py:support", "mpsci/distributions/half_logistic.py:support", "mpsci/distributions/hypsecant.py:support", "mpsci/distributions/invchi2.py:support", "mpsci/distributions/invgamma.py:support", "mpsci/distributions/invgauss.py:support", "mpsci/distributions/kumaraswamy.py:support", "mpsci/distributions/laplace.py:support", "mpsci/distributions/levy.py:support", "mpsci/distributions/loggamma.py:support", "mpsci/distributions/logistic.py:support", "mpsci/distributions/loglogistic.py:support", "mpsci/distributions/lognormal.py:support", "mpsci/distributions/maxwell.py:support", "mpsci/distributions/nakagami.py:support", "mpsci/distributions/ncf.py:support", "mpsci/distributions/nct.py:support", "mpsci/distributions/ncx2.py:support", "mpsci/distributions/normal.py:support", "mpsci/distributions/pareto.py:support", "mpsci/distributions/power_normal.py:support", "mpsci/distributions/rel_breitwigner.py:support", "mpsci/distributions/rice.py:support", "mpsci/distributions/slash.py:support", "mpsci/distributions/studentt.py:support", "mpsci/distributions/truncnorm.py:support", "mpsci/distributions/tukeylambda.py:support", "mpsci/distributions/uniform.py:support", "mpsci/distributions/weibull_max.py:support", "mpsci/distributions/weibull_min.py:support"]}
{"id": "C71", "title": "Fit of the beta distribution to interval-censored data", "statement": "For intervals lo_i < hi_i inside [0, 1], beta._nll_cens(a, b, lo, hi) returns minus the sum of log(cdf(hi_i) - cdf(lo_i)). _nll_cens_da and _nll_cens_db return its two partial derivatives and the matrix built by _mle_cens from _nll_cens_d2a, _nll_cens_d2b and _nll_cens_dadb is its Hessian matrix. When _mle_cens returns (a, b, hess, se_a, se_b), (a, b) has positive entries and both derivatives vanish there, hess is the Hessian matrix at (a, b), and se_a, se_b are the nonnegative square roots of the diagonal of its inverse.", "quantifier": "all finite lists of intervals 0 <= lo < hi <= 1, all a, b > 0, all starting points", "why_tests_cant": "the test suite does not call these functions; a wrong sign or a swapped derivative shows only in the standard errors of particular data", "anchors": ["mpsci/distributions/beta.py:_nll_cens", "mpsci/distributions/beta.py:_nll_cens_da", "mpsci/distributions/beta.py:_nll_cens_db", "mpsci/distributions/beta.py:_nll_cens_d2a", "mpsci/distributions/beta.py:_nll_cens_d2b", "mpsci/distributions/beta.py:_nll_cens_dadb", "mpsci/distributions/beta.py:_mle_cens"]}
{"id": "C72", "title": "The odds ratio returned by fisher_exact", "statement": "For a 2x2 table [[a, b], [c, d]] of nonnegative integers and every alternative, the first value returned by fisher_exact is a*d/(b*c) when b and c are positive, inf when b or c is 0 and a and d are positive, and nan when b or c is 0 and a or d is 0. It is the same number as the odds ratio of odds_ratio(kind='sample').", "quantifier": "every 2x2 table of nonnegative integers, every alternative", "why_tests_cant": "the cases with zeros are decided by products of cells; a test with one zero cell does not tell a*d from a+d", "anchors": ["mpsci/stats/_fisher_exact.py:fisher_exact", "mpsci/stats/_odds_ratio.py:_sample_odds_ratio"]}
{"id": "C73", "title": "The p-values of chisquare, gtest and anova_oneway", "statement": "chisquare(observed, expected) and, for equal totals, gtest(observed, expected) with at least two cells and positive expected frequencies return the statistic s together with the p-value chi2.sf(s, len(observed)-1), the integral of the chi2 density above s. anova_oneway returns F together with f.sf(F, k-1, n-k), the integral of the F density above F. The p-values are in (0, 1]; they are 1 exactly when observed equals expected, respectively when all group means are equal to the overall mean. A larger chisquare statistic has a smaller p-value. Unequal totals beyond the tolerance raise ValueError. The anova result does not change when the data are shifted, scaled by a nonzero number or reordered.", "quantifier": "every pair of frequency lists and every collection of nonempty groups with some variation inside the groups", "why_tests_cant": "tests compare a few tables with another library; they cannot establish the tail integral for every table and number of cells", "anchors": ["mpsci/stats/_goftests.py:chisquare", "mpsci/stats/_goftests.py:gtest", "mpsci/stats/_anova.py:anova_oneway"]}
{"id": "C74", "title": "betaincinv inverts the regularized incomplete beta function, with every method", "statement": "For a, b > 0 and 0 < y < 1, betaincinv(a, b, y, method, complement): with 'bisect' it ends and returns the number t in (0, 1) with I_t(a, b) = y (1 - I_t(a, b) = y with complement=True) or a representable number next to it, and ('bisect', [xa, xb]) does the same from the given bracket; with 'findroot' (the default, starting at 0.5) or ('findroot', x0) the number returned is a root found by mp.findroot, is the unique inverse in (0, 1) when it is at most 1, and a failure of mp.findroot or a negative or complex root is a RuntimeError. An undocumented method raises: ValueError for an unknown name, IndexError for a tuple without its second entry, TypeError for an entry of the wrong kind, RuntimeError for a bracket with fewer than two ends. y outside [0, 1] gives nan, y = 0 and y = 1 give 0 and 1 (1 and 0 with complement=True), whatever the method.", "quantifier": "all a, b > 0, all y, all methods, both values of complement, every precision of at least two bits", "why_tests_cant": "the tests try two methods on a handful of values; they cannot cover every a, b, y, every bracket and every way a root finder can fail", "anchors": ["mpsci/fun/_inv_reg_inc_beta.py:betaincinv", "mpsci/fun/_inv_reg_inc_beta.py:mp_bisect", "mpsci/distributions/f.py:invcdf", "mpsci/distributions/f.py:invsf"]}
{"id": "C75", "title": "Omitted location and scale are 0 and 1, in every function of a distribution", "statement": "Where location and scale may be omitted (loc and scale, mu and sigma, the ends a and b of uniform, the single scale of exponweib and benini.noncentral_moment, mu of vonmises) every function of the distribution uses location 0 and scale 1, so that pdf, logpdf, cdf, sf, the inverses, support, the moments, the entropy and nll called without them speak of the same distribution; with the location given and the scale omitted the scale is 1.", "quantifier": "26 distributions, all functions that have default arguments, all remaining arguments", "why_tests_cant": "tests pass the parameters explicitly or try the defaults of one function; a single differing default (as in normal.nll) is invisible to them", "anchors": ["mpsci/distributions/normal.py:nll", "mpsci/distributions/laplace.py:pdf", "mpsci/distributions/uniform.py:pdf", "mpsci/distributions/genextreme.py:pdf"]}
{"id": "C76", "title": "A nan argument gives a nan result", "statement": "With valid parameters, pdf, logpdf, cdf, sf (and logcdf, logsf) of nan, and invcdf and invsf of a nan probability, are nan: no distribution function turns a missing value into a number (a density, a 0 outside the support, a 1) and none raises on it.", "quantifier": "44 distributions, all valid real parameters", "why_tests_cant": "tests do not call the functions with nan; every comparison with nan is false, so the result depends on which branch comes last, for each parameter regime separately", "anchors": ["mpsci/distributions/uniform.py:pdf", "mpsci/distributions/uniform.py:logpdf", "mpsci/distributions/genpareto.py:pdf", "mpsci/distributions/genextreme.py:cdf", "mpsci/distributions/normal.py:cdf", "mpsci/fun/_xlogy.py:xlog1py"]}
{"id": "C77", "title": "Statistics and fits do not depend on the order of the data", "statement": "mean, var, std, variation, gmean, hmean, pmean, lehmer_mean, unique_counts, the Box-Cox and Yeo-Johnson likelihoods, nll (with its gradient and Hessian where they exist), mom and mle return the same result for the same data in any other order; chisquare, gtest, pearsonr and the weighted mean and geometric mean do so when the pairs are reordered; anova_oneway does so when the groups, or the numbers within a group, are reordered.", "quantifier": "all lists of real data of every length, all permutations, all parameters (fixed, initial or free); for fits that call mp.findroot: every root finder that sees the function only through the values it returns; the fits of counts without the counts argument", "why_tests_cant": "tests use one fixed order (often sorted data); a minimum taken from the first element, a median of unsorted data or a position-dependent term passes them", "anchors": ["mpsci/stats/_basic.py:mean", "mpsci/stats/_basic.py:unique_counts", "mpsci/stats/_pearsonr.py:pearsonr", "mpsci/stats/_anova.py:anova_oneway", "mpsci/distributions/laplace.py:mle", "mpsci/distributions/pareto.py:mle", "mpsci/distributions/weibull_min.py:mle", "mpsci/distributions/burr12.py:mle", "mpsci/distributions/gumbel_max.py:mle"]}
{"id": "C79", "title": "The likelihood follows the units of the data", "statement": "When every datum x is replaced by a + c x with c > 0, and loc and scale by a + c loc and c scale (mu by mu + log c for lognormal; a = 0 where there is no location), nll grows by exactly log(c) per observation, for normal, hypsecant, logistic, gumbel_max, gumbel_min, gamma, pareto, weibull_min, weibull_max, gompertz, nakagami, betaprime, burr12, benini, loggamma and lognormal. Hence differences of nll, and the place of its minimum, do not depend on the units.", "quantifier": "all lists of real data in the support of every length, all valid parameters, all a, all c > 0", "why_tests_cant": "tests evaluate nll at a few parameters; a missing n log(scale) term is a constant for scale = 1", "anchors": ["mpsci/distributions/normal.py:nll", "mpsci/distributions/hypsecant.py:nll", "mpsci/distributions/logistic.py:nll", "mpsci/distributions/gumbel_max.py:nll", "mpsci/distributions/gumbel_min.py:nll", "mpsci/distributions/gamma.py:nll", "mpsci/distributions/pareto.py:nll", "mpsci/distributions/weibull_min.py:nll", "mpsci/distributions/weibull_max.py:nll", "mpsci/distributions/gompertz.py:nll", "mpsci/distributions/nakagami.py:nll", "mpsci/distributions/betaprime.py:nll", "mpsci/distributions/burr12.py:nll", "mpsci/distributions/benini.py:nll", "mpsci/distributions/loggamma.py:nll", "mpsci/distributions/lognormal.py:nll"]}
{"id": "C78", "title": "Fits and means follow the units of the data", "statement": "When every datum x is replaced by a + c x with c > 0: normal.mle, laplace.mle, laplace.mom, logistic.mom, gumbel_max.mom and gumbel_min.mom return a + c loc and c scale; uniform.mle and uniform.mom return a + c times both ends; pareto.mle with a fixed location or scale, and weibull_min.mle and weibull_max.mle (whose loc is always given) keep the shape and return c scale, when the fixed values are converted too. When the data are multiplied by c: lognormal.mle and lognormal.mom add log c to mu and keep sigma; gamma.mle (after any number of Newton steps) and gamma.mom keep k and return c scale; gmean, hmean, pmean and lehmer_mean (with and without weights) are multiplied by c.", "quantifier": "all lists of real (positive, above loc) data of every length, all a, all c > 0; for the Weibull fits with a free shape: every root finder that evaluates its function at real points", "why_tests_cant": "tests compare with a few reference values in one unit; a formula that is not homogeneous (a missing square root, a missing location) is only seen for one data set and one tolerance", "anchors": ["mpsci/distributions/normal.py:mle", "mpsci/distributions/laplace.py:mle", "mpsci/distributions/laplace.py:mom", "mpsci/distributions/uniform.py:mle", "mpsci/distributions/logistic.py:mom", "mpsci/distributions/gumbel_max.py:mom", "mpsci/distributions/gumbel_min.py:mom", "mpsci/distributions/lognormal.py:mom", "mpsci/distributions/gamma.py:mle", "mpsci/distributions/pareto.py:mle", "mpsci/distributions/weibull_min.py:mle", "mpsci/distributions/weibull_max.py:mle", "mpsci/stats/_basic.py:pmean"]}
{"id": "C80", "title": "Fits, likelihoods and correlations of mirrored data", "statement": "When every datum x is replaced by -x: normal.mle, laplace.mle, laplace.mom and logistic.mom return -loc and the same scale; uniform.mle and uniform.mom return the negated ends in the other order; gumbel_min.mom and gumbel_min.mle return what gumbel_max.mom and gumbel_max.mle return for x, with loc negated, and weibull_max.mle what weibull_min.mle returns, with loc negated, whatever parameters are fixed, errors included; nll of normal, hypsecant, logistic, of gumbel_min for gumbel_max and of weibull_max for weibull_min is unchanged when loc is negated. pearsonr of -x and y returns -r and the p-value of the opposite alternative. When every datum x is replaced by 1 - x, beta.nll with a and b exchanged is unchanged, and beta.mle and beta.mom return a and b exchanged.", "quantifier": "all lists of real data, all parameters (fixed, free or with a starting value); for gumbel mle and beta mle every root finder that treats f and -f, or the two unknowns, alike", "why_tests_cant": "the mirrored modules are separate copies of the code, and tests compare each with a few reference values; a sign that is wrong in one branch (fixed loc, fixed scale) of one copy is not seen", "anchors": ["mpsci/distributions/gumbel_max.py:mle", "mpsci/distributions/gumbel_min.py:mle", "mpsci/distributions/gumbel_min.py:mom", "mpsci/distributions/weibull_min.py:mle", "mpsci/distributions/weibull_max.py:mle", "mpsci/distributions/weibull_max.py:nll", "mpsci/distributions/normal.py:mle", "mpsci/distributions/laplace.py:mle", "mpsci/distributions/laplace.py:mom", "mpsci/distributions/logistic.py:mom", "mpsci/distributions/uniform.py:mle", "mpsci/distributions/uniform.py:mom", "mpsci/distributions/beta.py:mle", "mpsci/distributions/beta.py:mom", "mpsci/distributions/beta.py:nll", "mpsci/stats/_pearsonr.py:pearsonr"]}
{"id": "C81", "title": "Repeated data and pooled samples", "statement": "When the data are given k times over, the means (mean, gmean, hmean, pmean, lehmer_mean), var and std with ddof = 0 and the correlation returned by pearsonr are unchanged, and so are the estimates of normal.mle, lognormal.mle and mom, laplace.mle and mom, logistic.mom, gumbel_max.mom, gumbel_min.mom, uniform.mle and mom, gamma.mle and mom, pareto.mle with loc or scale fixed, and weibull_min.mle and weibull_max.mle with loc fixed. For two samples in the support, the nll of the pooled sample is the sum of the two nll (normal, hypsecant, lognormal, logistic, gumbel_max, gumbel_min, beta, kumaraswamy, gamma, gompertz, loggamma, nakagami, pareto, weibull_min, weibull_max, benini, betaprime, burr12, genpareto).", "quantifier": "all non-empty lists of real data (positive, or not all equal, or beyond loc, where the estimator needs it), every number of copies, all valid parameters; for weibull every root finder that sees only the values of the function", "why_tests_cant": "the tests compare a few small samples with reference values; a sample size that enters twice, once too little, or with a wrong ddof is only visible when the size changes and everything else stays", "anchors": ["mpsci/stats/_basic.py:mean", "mpsci/stats/_basic.py:var", "mpsci/stats/_basic.py:pmean", "mpsci/stats/_pearsonr.py:pearsonr", "mpsci/distributions/laplace.py:mle", "mpsci/distributions/gamma.py:mle", "mpsci/distributions/pareto.py:mle", "mpsci/distributions/weibull_min.py:mle", "mpsci/distributions/weibull_max.py:mle", "mpsci/distributions/normal.py:nll"]}
