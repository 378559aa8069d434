{
 "claims": [
  {
   "property": "C01",
   "status": "proved",
   "theorems": [
    "Mpsci.argus.complementary",
    "Mpsci.benini.complementary",
    "Mpsci.benktander1.complementary",
    "Mpsci.benktander2.complementary",
    "Mpsci.beta.complementary",
    "Mpsci.betaprime.complementary",
    "Mpsci.burr12.complementary",
    "Mpsci.cauchy.complementary",
    "Mpsci.chi.complementary",
    "Mpsci.chi2.complementary",
    "Mpsci.cosine.complementary",
    "Mpsci.exponweib.complementary",
    "Mpsci.fdist.complementary",
    "Mpsci.folded_normal.complementary",
    "Mpsci.gamma.complementary",
    "Mpsci.gamma_gompertz.complementary",
    "Mpsci.genhyperbolic.complementary",
    "Mpsci.geninvgauss.complementary",
    "Mpsci.genexpon.complementary_partial",
    "Mpsci.genexpon.raises_left",
    "Mpsci.genextreme.complementary",
    "Mpsci.genpareto.complementary",
    "Mpsci.gompertz.complementary",
    "Mpsci.gumbel_max.complementary",
    "Mpsci.gumbel_min.complementary",
    "Mpsci.half_logistic.complementary",
    "Mpsci.hypsecant.complementary",
    "Mpsci.invchi2.complementary",
    "Mpsci.invgamma.complementary",
    "Mpsci.invgauss.complementary",
    "Mpsci.kumaraswamy.complementary",
    "Mpsci.laplace.complementary",
    "Mpsci.levy.complementary",
    "Mpsci.loggamma.complementary",
    "Mpsci.logistic.complementary",
    "Mpsci.loglogistic.complementary",
    "Mpsci.lognormal.complementary_partial",
    "Mpsci.lognormal.raises_left",
    "Mpsci.maxwell.complementary",
    "Mpsci.nakagami.complementary",
    "Mpsci.ncx2.complementary",
    "Mpsci.normal.complementary",
    "Mpsci.pareto.complementary",
    "Mpsci.power_normal.complementary",
    "Mpsci.rel_breitwigner.complementary",
    "Mpsci.rice.complementary",
    "Mpsci.slash.complementary",
    "Mpsci.studentt.complementary",
    "Mpsci.truncnorm.complementary",
    "Mpsci.tukeylambda.complementary",
    "Mpsci.uniform.complementary",
    "Mpsci.weibull_max.complementary",
    "Mpsci.weibull_min.complementary"
   ],
   "note": "Proved for every anchored module; lognormal.sf raises for x <= 0 and genexpon raises below loc (negations proved: lognormal.raises_left, genexpon.raises_left)."
  },
  {
   "property": "C02",
   "status": "proved",
   "theorems": [
    "Mpsci.argus.isCdf",
    "Mpsci.benini.isCdf",
    "Mpsci.benktander1.isCdf",
    "Mpsci.benktander2.isCdf",
    "Mpsci.beta.isCdf",
    "Mpsci.betaprime.isCdf",
    "Mpsci.burr12.isCdf",
    "Mpsci.cauchy.isCdf",
    "Mpsci.chi.isCdf",
    "Mpsci.chi2.isCdf",
    "Mpsci.cosine.isCdf",
    "Mpsci.exponweib.isCdf",
    "Mpsci.fdist.isCdf",
    "Mpsci.folded_normal.isCdf",
    "Mpsci.gamma.isCdf",
    "Mpsci.gamma_gompertz.isCdf",
    "Mpsci.genhyperbolic.isCdf",
    "Mpsci.geninvgauss.isCdf",
    "Mpsci.genexpon.raises_left",
    "Mpsci.genexpon.not_isCdf",
    "Mpsci.genexpon.isDist_partial",
    "Mpsci.genextreme.isCdf",
    "Mpsci.genpareto.isCdf",
    "Mpsci.gompertz.isCdf",
    "Mpsci.gumbel_max.isCdf",
    "Mpsci.gumbel_min.isCdf",
    "Mpsci.half_logistic.isCdf",
    "Mpsci.hypsecant.isCdf",
    "Mpsci.invchi2.isCdf",
    "Mpsci.invgamma.isCdf",
    "Mpsci.invgauss.isCdf",
    "Mpsci.kumaraswamy.isCdf",
    "Mpsci.laplace.isCdf",
    "Mpsci.levy.isCdf",
    "Mpsci.loggamma.isCdf",
    "Mpsci.logistic.isCdf",
    "Mpsci.loglogistic.isCdf",
    "Mpsci.lognormal.isCdf",
    "Mpsci.maxwell.isCdf",
    "Mpsci.nakagami.isCdf",
    "Mpsci.ncf.isCdf",
    "Mpsci.ncx2.isCdf",
    "Mpsci.normal.isCdf",
    "Mpsci.pareto.isCdf",
    "Mpsci.power_normal.isCdf",
    "Mpsci.rel_breitwigner.isCdf",
    "Mpsci.rice.isCdf",
    "Mpsci.slash.isCdf",
    "Mpsci.studentt.isCdf",
    "Mpsci.truncnorm.isCdf",
    "Mpsci.tukeylambda.isCdf",
    "Mpsci.tukeylambda.cdf_fails_right",
    "Mpsci.tukeylambda.cdf_fails_left",
    "Mpsci.uniform.isCdf",
    "Mpsci.weibull_max.isCdf",
    "Mpsci.weibull_min.isCdf"
   ],
   "note": "Proved for every listed module and for the further modules modelled; outside the list, tukeylambda.cdf returns nan in the tails for lam < 0 (tukeylambda.cdf_fails_right, cdf_fails_left)."
  },
  {
   "property": "C03",
   "status": "proved",
   "theorems": [
    "Mpsci.argus.isDensity",
    "Mpsci.benini.isDensity",
    "Mpsci.benktander1.isDensity",
    "Mpsci.benktander2.isDensity",
    "Mpsci.beta.isDensity",
    "Mpsci.betaprime.isDensity",
    "Mpsci.burr12.isDensity",
    "Mpsci.cauchy.isDensity",
    "Mpsci.chi.isDensity",
    "Mpsci.chi.pdf_at_zero",
    "Mpsci.chi.pdf_zero_fails",
    "Mpsci.chi2.isDensity",
    "Mpsci.chi2.pdf_at_zero",
    "Mpsci.cosine.isDensity",
    "Mpsci.exponweib.isDensity",
    "Mpsci.exponweib.pdf_zero_raises",
    "Mpsci.fdist.isDensity",
    "Mpsci.fdist.pdf_zero_fails",
    "Mpsci.folded_normal.isDensity",
    "Mpsci.gamma.isDensity",
    "Mpsci.gamma.pdf_at_zero",
    "Mpsci.gamma_gompertz.isDensity",
    "Mpsci.genhyperbolic.isDensity",
    "Mpsci.genhyperbolic.pdf_closed",
    "Mpsci.geninvgauss.isDensity",
    "Mpsci.genexpon.raises_left",
    "Mpsci.genextreme.isDensity",
    "Mpsci.genpareto.isDensity",
    "Mpsci.gompertz.isDensity",
    "Mpsci.gumbel_max.isDensity",
    "Mpsci.gumbel_min.isDensity",
    "Mpsci.half_logistic.isDensity",
    "Mpsci.hypsecant.isDensity",
    "Mpsci.invchi2.isDensity",
    "Mpsci.invgamma.isDensity",
    "Mpsci.invgauss.isDensity",
    "Mpsci.kumaraswamy.isDensity",
    "Mpsci.kumaraswamy.pdf_ends",
    "Mpsci.laplace.isDensity",
    "Mpsci.levy.isDensity",
    "Mpsci.loggamma.isDensity",
    "Mpsci.logistic.isDensity",
    "Mpsci.loglogistic.isDensity",
    "Mpsci.lognormal.isDensity",
    "Mpsci.maxwell.isDensity",
    "Mpsci.nakagami.isDensity",
    "Mpsci.ncf.isDensity",
    "Mpsci.ncf.support_spec",
    "Mpsci.nct.isPdf",
    "Mpsci.nct.isRatio",
    "Mpsci.ncx2.isDensity",
    "Mpsci.ncx2.pdf_zero_limit",
    "Mpsci.ncx2.pdf_central_fails",
    "Mpsci.ncx2.support_spec",
    "Mpsci.normal.isDensity",
    "Mpsci.pareto.isDensity",
    "Mpsci.power_normal.isDensity",
    "Mpsci.rel_breitwigner.isDensity",
    "Mpsci.rice.isDensity",
    "Mpsci.rice.support_spec",
    "Mpsci.slash.isDensity",
    "Mpsci.studentt.isDensity",
    "Mpsci.truncnorm.isDensity",
    "Mpsci.tukeylambda.isDensity",
    "Mpsci.tukeylambda.deriv_neg_partial",
    "Mpsci.uniform.isDensity",
    "Mpsci.weibull_max.isDensity",
    "Mpsci.weibull_min.isDensity"
   ],
   "note": "Proved for every listed module; tukeylambda with lam < 0, outside the list, is deriv_neg_partial."
  },
  {
   "property": "C04",
   "status": "partial",
   "theorems": [
    "Mpsci.argus.isLogOf",
    "Mpsci.benini.isLogOf",
    "Mpsci.benini.isLogOf_cdf",
    "Mpsci.benktander1.isLogOf",
    "Mpsci.benktander2.isLogOf",
    "Mpsci.beta.isLogOf",
    "Mpsci.beta.pole",
    "Mpsci.betaprime.isLogOf",
    "Mpsci.betaprime.pole",
    "Mpsci.burr12.isLogOf",
    "Mpsci.cauchy.isLogOf",
    "Mpsci.chi.isLogOf",
    "Mpsci.chi2.isLogOf",
    "Mpsci.cosine.isLogOf",
    "Mpsci.exponweib.isLogOf_interior",
    "Mpsci.exponweib.isLogOf_fails",
    "Mpsci.fdist.isLogOf",
    "Mpsci.folded_normal.isLogOf",
    "Mpsci.gamma.isLogOf",
    "Mpsci.gamma_gompertz.isLogOf",
    "Mpsci.genhyperbolic.isLogOf",
    "Mpsci.geninvgauss.isLogOf",
    "Mpsci.genexpon.isLogOf_partial",
    "Mpsci.genexpon.logpdf_omits_scale",
    "Mpsci.genextreme.isLogOf",
    "Mpsci.genextreme.isLogOf_fails",
    "Mpsci.genpareto.isLogOf",
    "Mpsci.genpareto.isLogOf_fails",
    "Mpsci.gompertz.isLogOf",
    "Mpsci.gumbel_max.isLogOf",
    "Mpsci.gumbel_min.isLogOf",
    "Mpsci.half_logistic.isLogOf",
    "Mpsci.hypsecant.isLogOf",
    "Mpsci.invchi2.isLogOf",
    "Mpsci.invgamma.isLogOf",
    "Mpsci.invgauss.isLogOf",
    "Mpsci.kumaraswamy.isLogOf_interior",
    "Mpsci.kumaraswamy.logpdf_ends",
    "Mpsci.kumaraswamy.isLogOf_fails",
    "Mpsci.laplace.isLogOf",
    "Mpsci.levy.isLogOf",
    "Mpsci.loggamma.isLogOf",
    "Mpsci.logistic.isLogOf",
    "Mpsci.loglogistic.isLogOf",
    "Mpsci.lognormal.isLogOf",
    "Mpsci.maxwell.isLogOf",
    "Mpsci.nakagami.isLogOf",
    "Mpsci.nct.isLogOf",
    "Mpsci.normal.isLogOf",
    "Mpsci.pareto.isLogOf",
    "Mpsci.power_normal.isLogOf",
    "Mpsci.rel_breitwigner.isLogOf",
    "Mpsci.rice.isLogOf",
    "Mpsci.slash.isLogOf",
    "Mpsci.studentt.isLogOf",
    "Mpsci.truncnorm.isLogOf",
    "Mpsci.tukeylambda.isLogOf",
    "Mpsci.uniform.isLogOf",
    "Mpsci.vonmises.isLogOf",
    "Mpsci.weibull_max.isLogOf",
    "Mpsci.weibull_min.isLogOf",
    "Mpsci.weibull_min.pdf_logpdf_at_loc"
   ],
   "note": "Proved for the modelled distributions; the ends of the support where logpdf raises or differs from log(pdf) are recorded in DESIGN.md section 5 with their negations."
  },
  {
   "property": "C05",
   "status": "proved",
   "theorems": [
    "Mpsci.gauss_kuzmin.inverts",
    "Mpsci.gauss_kuzmin.inverts'",
    "Mpsci.argus.invcdf_cdf",
    "Mpsci.argus.invsf_sf",
    "Mpsci.argus.inverts_cdf",
    "Mpsci.argus.inverts_sf",
    "Mpsci.benini.inverts_cdf",
    "Mpsci.benini.inverts_sf",
    "Mpsci.benktander1.inverts_cdf",
    "Mpsci.benktander1.inverts_sf",
    "Mpsci.benktander2.inverts_cdf",
    "Mpsci.benktander2.inverts_sf",
    "Mpsci.beta.inverts_cdf_rounded",
    "Mpsci.beta.inverts_sf_rounded",
    "Mpsci.betaprime.inverts_cdf",
    "Mpsci.betaprime.inverts_sf",
    "Mpsci.burr12.inverts_cdf",
    "Mpsci.burr12.inverts_sf",
    "Mpsci.cauchy.inverts_cdf",
    "Mpsci.cauchy.inverts_sf",
    "Mpsci.chi2.inverts_cdf",
    "Mpsci.chi2.inverts_sf",
    "Mpsci.cosine.inverts_cdf",
    "Mpsci.cosine.inverts_sf",
    "Mpsci.exponweib.inverts_cdf",
    "Mpsci.exponweib.inverts_sf",
    "Mpsci.fdist.inverts_cdf_rounded",
    "Mpsci.fdist.inverts_sf_rounded",
    "Mpsci.gamma.inverts_cdf",
    "Mpsci.gamma.inverts_sf",
    "Mpsci.gamma_gompertz.inverts_cdf",
    "Mpsci.gamma_gompertz.inverts_sf",
    "Mpsci.genexpon.inverts_cdf",
    "Mpsci.genexpon.inverts_sf",
    "Mpsci.genextreme.inverts_cdf",
    "Mpsci.genextreme.inverts_sf",
    "Mpsci.genpareto.inverts_cdf",
    "Mpsci.genpareto.inverts_sf",
    "Mpsci.gompertz.inverts_cdf",
    "Mpsci.gompertz.inverts_sf",
    "Mpsci.gumbel_max.inverts_cdf",
    "Mpsci.gumbel_max.inverts_sf",
    "Mpsci.gumbel_min.inverts_cdf",
    "Mpsci.gumbel_min.inverts_sf",
    "Mpsci.half_logistic.inverts_cdf",
    "Mpsci.half_logistic.inverts_sf",
    "Mpsci.hypsecant.inverts_cdf",
    "Mpsci.hypsecant.inverts_sf",
    "Mpsci.invgamma.inverts_cdf_newton",
    "Mpsci.invgamma.inverts_sf_newton",
    "Mpsci.invgauss.inverts_cdf_newton",
    "Mpsci.invgauss.inverts_sf_newton",
    "Mpsci.kumaraswamy.inverts_cdf",
    "Mpsci.kumaraswamy.inverts_sf",
    "Mpsci.laplace.inverts_cdf",
    "Mpsci.laplace.inverts_sf",
    "Mpsci.levy.inverts_cdf",
    "Mpsci.levy.inverts_sf",
    "Mpsci.loggamma.inverts_cdf",
    "Mpsci.loggamma.inverts_sf",
    "Mpsci.logistic.inverts_cdf",
    "Mpsci.logistic.inverts_sf",
    "Mpsci.loglogistic.inverts_cdf",
    "Mpsci.loglogistic.inverts_sf",
    "Mpsci.lognormal.inverts_cdf",
    "Mpsci.lognormal.inverts_sf",
    "Mpsci.maxwell.inverts_cdf",
    "Mpsci.maxwell.inverts_sf",
    "Mpsci.nakagami.inverts_cdf",
    "Mpsci.nakagami.inverts_sf",
    "Mpsci.normal.inverts_cdf",
    "Mpsci.normal.inverts_sf",
    "Mpsci.pareto.inverts_cdf",
    "Mpsci.pareto.inverts_sf",
    "Mpsci.power_normal.inverts_cdf",
    "Mpsci.power_normal.inverts_sf",
    "Mpsci.rel_breitwigner.inverts_cdf",
    "Mpsci.rel_breitwigner.inverts_sf",
    "Mpsci.slash.inverts_cdf",
    "Mpsci.slash.inverts_sf",
    "Mpsci.studentt.inverts_cdf_lower_partial",
    "Mpsci.studentt.inverts_cdf_upper_partial",
    "Mpsci.studentt.inverts_cdf_fails",
    "Mpsci.studentt.inverts_sf_fails",
    "Mpsci.studentt.inverts_sf_partial",
    "Mpsci.truncnorm.inverts_cdf",
    "Mpsci.truncnorm.inverts_sf",
    "Mpsci.tukeylambda.inverts_cdf",
    "Mpsci.tukeylambda.inverts_sf",
    "Mpsci.tukeylambda.inverts_neg_partial",
    "Mpsci.uniform.inverts_cdf",
    "Mpsci.uniform.inverts_sf",
    "Mpsci.weibull_max.inverts_cdf",
    "Mpsci.weibull_max.inverts_sf",
    "Mpsci.weibull_min.inverts_cdf",
    "Mpsci.weibull_min.inverts_sf"
   ],
   "note": "Searching quantile functions are proved given contracts on mp.findroot; the Newton iteration of invgamma, invchi2 and invgauss is proved to end and to be exact up to its tolerance (inverts_cdf_newton, inverts_sf_newton). Outside the listed modules studentt.invcdf and tukeylambda (lam < 0) fail at points given by studentt.inverts_cdf_fails and tukeylambda.cdf_fails_right."
  },
  {
   "property": "C06",
   "status": "partial",
   "theorems": [
    "Mpsci.gauss_kuzmin.inv_rejects",
    "Mpsci.argus.rejects_p",
    "Mpsci.benini.rejects_p",
    "Mpsci.benktander1.rejects_p",
    "Mpsci.benktander2.rejects_p",
    "Mpsci.beta.rejects_p",
    "Mpsci.betaprime.rejects_p",
    "Mpsci.burr12.rejects_p",
    "Mpsci.cauchy.rejects_p",
    "Mpsci.chi2.search_fails",
    "Mpsci.cosine.rejects_p",
    "Mpsci.exponweib.rejects_p",
    "Mpsci.fdist.rejects_p",
    "Mpsci.gamma.rejects_p",
    "Mpsci.gamma_gompertz.rejects_p",
    "Mpsci.genexpon.rejects_p",
    "Mpsci.genextreme.rejects_p",
    "Mpsci.genpareto.rejects_p",
    "Mpsci.gompertz.rejects_p",
    "Mpsci.gumbel_max.rejects_p",
    "Mpsci.gumbel_min.rejects_p",
    "Mpsci.half_logistic.rejects_p",
    "Mpsci.hypsecant.rejects_p",
    "Mpsci.invgamma.rejects_p",
    "Mpsci.invgauss.rejects_p",
    "Mpsci.kumaraswamy.rejects_p",
    "Mpsci.laplace.accepts_bad_p",
    "Mpsci.levy.rejects_p",
    "Mpsci.loggamma.rejects_p",
    "Mpsci.logistic.rejects_p",
    "Mpsci.loglogistic.rejects_p",
    "Mpsci.lognormal.rejects_p",
    "Mpsci.maxwell.rejects_p",
    "Mpsci.nakagami.rejects_p",
    "Mpsci.normal.rejects_p",
    "Mpsci.pareto.rejects_p",
    "Mpsci.power_normal.rejects_p",
    "Mpsci.rel_breitwigner.rejects_p",
    "Mpsci.slash.rejects_p",
    "Mpsci.studentt.rejects_p",
    "Mpsci.truncnorm.rejects_p",
    "Mpsci.tukeylambda.rejects_p",
    "Mpsci.uniform.rejects_p",
    "Mpsci.weibull_max.rejects_p",
    "Mpsci.weibull_min.rejects_p"
   ],
   "note": "Proved for every modelled quantile function that validates p; the ones that do not (for example laplace) are recorded in DESIGN.md section 5 with their negations."
  },
  {
   "property": "C07",
   "status": "partial",
   "theorems": [
    "Mpsci.betabinomial.rejects",
    "Mpsci.binomial.rejects",
    "Mpsci.fishers_noncentral_hypergeometric.rejects",
    "Mpsci.hypergeometric.rejects",
    "Mpsci.logseries.rejects",
    "Mpsci.negative_binomial.rejects",
    "Mpsci.negative_hypergeometric.rejects",
    "Mpsci.poisson.rejects",
    "Mpsci.common.validateInt_spec",
    "Mpsci.common.validateInt_rejects",
    "Mpsci.trunc_discrete_exp.rejects",
    "Mpsci.trunc_discrete_exp.mode_invalid",
    "Mpsci.argus.validates",
    "Mpsci.argus.validates_moments",
    "Mpsci.benini.validates",
    "Mpsci.benktander1.validates",
    "Mpsci.benktander2.validates",
    "Mpsci.benktander2.mode_not_validated",
    "Mpsci.beta.validates",
    "Mpsci.beta.validates_rest",
    "Mpsci.betaprime.validates",
    "Mpsci.betaprime.validates_rest",
    "Mpsci.burr12.validates",
    "Mpsci.cauchy.validates",
    "Mpsci.chi.validates",
    "Mpsci.chi.validates_moments",
    "Mpsci.chi2.validates",
    "Mpsci.chi2.validates_moments",
    "Mpsci.dirichlet.rejects_x",
    "Mpsci.exponweib.validates",
    "Mpsci.exponweib.pdf_zero_raises",
    "Mpsci.fdist.validates",
    "Mpsci.fdist.validates_rest",
    "Mpsci.folded_normal.validates",
    "Mpsci.gamma.validates",
    "Mpsci.gamma.validates_moments",
    "Mpsci.gamma_gompertz.validates",
    "Mpsci.genhyperbolic.validates_bad",
    "Mpsci.genhyperbolic.validates_ok",
    "Mpsci.genhyperbolic.boundary",
    "Mpsci.geninvgauss.validates",
    "Mpsci.geninvgauss.validates_support",
    "Mpsci.genexpon.validates",
    "Mpsci.genexpon.inv_validates",
    "Mpsci.genextreme.validates",
    "Mpsci.genextreme.pdf_raises",
    "Mpsci.genpareto.validates",
    "Mpsci.genpareto.pdf_raises",
    "Mpsci.gompertz.validates",
    "Mpsci.gumbel_max.validates",
    "Mpsci.gumbel_min.validates",
    "Mpsci.half_logistic.validates",
    "Mpsci.hypsecant.validates",
    "Mpsci.invchi2.validates",
    "Mpsci.invchi2.validates_rest",
    "Mpsci.invgamma.validates",
    "Mpsci.invgamma.validates_rest",
    "Mpsci.invgauss.validates",
    "Mpsci.invgauss.validates_rest",
    "Mpsci.kumaraswamy.validates",
    "Mpsci.laplace.validates",
    "Mpsci.levy.validates",
    "Mpsci.levy.validates_inv",
    "Mpsci.loggamma.validates",
    "Mpsci.loggamma.validates_rest",
    "Mpsci.loggamma.endPoints_not_validated",
    "Mpsci.logistic.validates",
    "Mpsci.loglogistic.validates",
    "Mpsci.lognormal.validates",
    "Mpsci.maxwell.validates",
    "Mpsci.maxwell.validates_moments",
    "Mpsci.nakagami.validates",
    "Mpsci.nakagami.validates_moments",
    "Mpsci.ncf.validates_fails",
    "Mpsci.ncx2.validates_fails",
    "Mpsci.normal.validates",
    "Mpsci.pareto.validates",
    "Mpsci.power_normal.validates",
    "Mpsci.rel_breitwigner.validates",
    "Mpsci.rel_breitwigner.validates_moments",
    "Mpsci.rice.validates",
    "Mpsci.rice.validates_rest",
    "Mpsci.studentt.validates",
    "Mpsci.studentt.validates_moments",
    "Mpsci.studentt.rejects_df",
    "Mpsci.truncnorm.validates",
    "Mpsci.tukeylambda.validates",
    "Mpsci.tukeylambda.validates_rest",
    "Mpsci.uniform.validates",
    "Mpsci.weibull_max.validates",
    "Mpsci.weibull_min.validates",
    "Mpsci.weibull_min.support_eq"
   ],
   "note": "Proved for the modelled distributions; functions that do not validate are recorded as failures."
  },
  {
   "property": "C08",
   "status": "proved",
   "theorems": [
    "Mpsci.argus.scale",
    "Mpsci.benini.scale",
    "Mpsci.benini.scale_pdf",
    "Mpsci.betaprime.scale",
    "Mpsci.betaprime.scale_pdf",
    "Mpsci.burr12.scale",
    "Mpsci.burr12.scale_pdf",
    "Mpsci.cauchy.locScale",
    "Mpsci.exponweib.scale",
    "Mpsci.exponweib.scale_pdf",
    "Mpsci.gamma.scale",
    "Mpsci.gamma.scale_pdf",
    "Mpsci.gamma_gompertz.scale",
    "Mpsci.gamma_gompertz.scale_pdf",
    "Mpsci.genhyperbolic.locScale",
    "Mpsci.geninvgauss.locScale",
    "Mpsci.genexpon.locScale",
    "Mpsci.genextreme.locScale",
    "Mpsci.genextreme.locScale_pdf",
    "Mpsci.genpareto.locScale",
    "Mpsci.genpareto.locScale_pdf",
    "Mpsci.gompertz.scale",
    "Mpsci.gompertz.scale_pdf",
    "Mpsci.gumbel_max.locScale",
    "Mpsci.gumbel_min.locScale",
    "Mpsci.half_logistic.locScale",
    "Mpsci.half_logistic.locScale_pdf",
    "Mpsci.hypsecant.locScale",
    "Mpsci.hypsecant.locScale_pdf",
    "Mpsci.invgamma.locScale",
    "Mpsci.invgauss.locScale",
    "Mpsci.laplace.locScale",
    "Mpsci.levy.locScale",
    "Mpsci.loggamma.scale",
    "Mpsci.logistic.locScale",
    "Mpsci.loglogistic.scale",
    "Mpsci.loglogistic.scale_pdf",
    "Mpsci.maxwell.locScale",
    "Mpsci.multivariate_t.shift",
    "Mpsci.nakagami.locScale",
    "Mpsci.normal.locScale",
    "Mpsci.pareto.locScale",
    "Mpsci.pareto.locScale_pdf",
    "Mpsci.power_normal.locScale",
    "Mpsci.power_normal.locScale_pdf",
    "Mpsci.rel_breitwigner.scale",
    "Mpsci.rice.scales",
    "Mpsci.tukeylambda.locScale",
    "Mpsci.uniform.affine",
    "Mpsci.weibull_max.locScale",
    "Mpsci.weibull_min.locScale"
   ],
   "note": ""
  },
  {
   "property": "C09",
   "status": "partial",
   "theorems": [
    "Mpsci.argus.isMode",
    "Mpsci.benini.isMode",
    "Mpsci.benktander1.isMode",
    "Mpsci.benktander2.isMode",
    "Mpsci.beta.isMode",
    "Mpsci.beta.mode_pole",
    "Mpsci.betaprime.isMode",
    "Mpsci.betaprime.mode_pole",
    "Mpsci.burr12.isMode",
    "Mpsci.burr12.mode_fails",
    "Mpsci.cauchy.isMode",
    "Mpsci.chi.isMode",
    "Mpsci.chi.mode_decreasing",
    "Mpsci.chi2.isMode",
    "Mpsci.chi2.mode_unbounded",
    "Mpsci.cosine.isMode",
    "Mpsci.fdist.isMode",
    "Mpsci.fdist.mode_left",
    "Mpsci.fdist.mode_fails",
    "Mpsci.folded_normal.isMode_zero",
    "Mpsci.folded_normal.isMode_partial",
    "Mpsci.gamma.isMode",
    "Mpsci.gamma.mode_unbounded",
    "Mpsci.gamma_gompertz.isMode",
    "Mpsci.geninvgauss.isMode",
    "Mpsci.genextreme.isMode",
    "Mpsci.genextreme.mode_unbounded",
    "Mpsci.gompertz.isMode",
    "Mpsci.gumbel_max.isMode",
    "Mpsci.gumbel_min.isMode",
    "Mpsci.half_logistic.isMode",
    "Mpsci.hypsecant.isMode",
    "Mpsci.invchi2.isMode",
    "Mpsci.invgamma.isMode",
    "Mpsci.invgauss.isMode",
    "Mpsci.kumaraswamy.isMode",
    "Mpsci.kumaraswamy.mode_unbounded",
    "Mpsci.laplace.isMode",
    "Mpsci.loggamma.isMode",
    "Mpsci.logistic.isMode",
    "Mpsci.lognormal.isMode",
    "Mpsci.maxwell.isMode",
    "Mpsci.multivariate_t.symm_mode",
    "Mpsci.nakagami.isMode",
    "Mpsci.nakagami.mode_half_fails",
    "Mpsci.nakagami.mode_complex_fails",
    "Mpsci.normal.isMode",
    "Mpsci.rel_breitwigner.isMode",
    "Mpsci.rice.mode_equation",
    "Mpsci.rice.isMode_partial",
    "Mpsci.slash.isMode",
    "Mpsci.studentt.isMode",
    "Mpsci.truncnorm.isMode",
    "Mpsci.weibull_max.isMode",
    "Mpsci.weibull_min.isMode"
   ],
   "note": "Proved for the modelled distributions; burr12.mode and folded_normal.mode fail outside the stated parameter ranges (burr12.mode_fails)."
  },
  {
   "property": "C10",
   "status": "proved",
   "theorems": [
    "Mpsci.gauss_kuzmin.isMedian",
    "Mpsci.gauss_kuzmin.invcdf_half",
    "Mpsci.benini.isMedian",
    "Mpsci.burr12.isMedian",
    "Mpsci.invgauss.median_newton",
    "Mpsci.kumaraswamy.isMedian",
    "Mpsci.normal.isMedian",
    "Mpsci.truncnorm.isMedian",
    "Mpsci.uniform.isMedian"
   ],
   "note": "invgauss.median is the end of a Newton iteration: exact up to its tolerance (invgauss.median_newton)."
  },
  {
   "property": "C11",
   "status": "proved",
   "theorems": [
    "Mpsci.cosine.symmetric",
    "Mpsci.genhyperbolic.mirror",
    "Mpsci.gumbel_min.mirror",
    "Mpsci.gumbel_min.mirror_quantile",
    "Mpsci.gumbel_min.mirror_mode_mean_var",
    "Mpsci.hypsecant.symmetric",
    "Mpsci.nct.mirror",
    "Mpsci.normal.symmetric",
    "Mpsci.slash.symmetric",
    "Mpsci.studentt.symmetric",
    "Mpsci.weibull_max.mirror",
    "Mpsci.weibull_max.mirror_quantile",
    "Mpsci.gumbel_min.nll_is_mirrored",
    "Mpsci.special.logistic_symmetric",
    "Mpsci.special.cauchy_symmetric",
    "Mpsci.special.laplace_symmetric"
   ],
   "note": ""
  },
  {
   "property": "C12",
   "status": "partial",
   "theorems": [
    "Mpsci.beta.symmetric",
    "Mpsci.betaprime.reciprocal",
    "Mpsci.chi2.eq_gamma",
    "Mpsci.dirichlet.pdf_two",
    "Mpsci.fdist.eq_betaprime",
    "Mpsci.fdist.reciprocal",
    "Mpsci.folded_normal.cdf_eq_normal",
    "Mpsci.folded_normal.pdf_eq_normal",
    "Mpsci.folded_normal.neg_mu",
    "Mpsci.geninvgauss.pdf_invgauss",
    "Mpsci.half_logistic.cdf_eq_logistic",
    "Mpsci.invchi2.eq_invgamma",
    "Mpsci.invchi2.moments_eq_invgamma",
    "Mpsci.levy.eq_invgamma",
    "Mpsci.loggamma.eq_gamma",
    "Mpsci.lognormal.eq_normal",
    "Mpsci.maxwell.eq_chi",
    "Mpsci.multivariate_t.pdf_one",
    "Mpsci.ncf.tendsto_f",
    "Mpsci.ncf.moments_f",
    "Mpsci.ncf.central_fails",
    "Mpsci.nct.central_fails",
    "Mpsci.ncx2.eq_chi2",
    "Mpsci.power_normal.one_eq_normal",
    "Mpsci.rice.eq_ncx2",
    "Mpsci.studentt.sq_f",
    "Mpsci.studentt.eq_cauchy",
    "Mpsci.truncnorm.untruncated",
    "Mpsci.truncnorm.conditional",
    "Mpsci.special.genextreme_zero",
    "Mpsci.special.genextreme_zero_inv",
    "Mpsci.special.genpareto_zero",
    "Mpsci.special.exponweib_one",
    "Mpsci.special.burr12_one",
    "Mpsci.special.gamma_gompertz_one",
    "Mpsci.special.benktander2_one"
   ],
   "note": "Proved for the pairs of modelled modules; special cases in which the code raises or returns another value are recorded in DESIGN.md section 5."
  },
  {
   "property": "C13",
   "status": "proved",
   "theorems": [
    "Mpsci.fisherExact.pvalue_less",
    "Mpsci.fisherExact.pvalue_greater",
    "Mpsci.fisherExact.pvalue_two_sided",
    "Mpsci.fisherExact.pvalue_invalid"
   ],
   "note": ""
  },
  {
   "property": "C14",
   "status": "proved",
   "theorems": [
    "Mpsci.fisherExact.pvalue_range",
    "Mpsci.fisherExact.pvalue_less_add_greater",
    "Mpsci.fisherExact.pvalue_transpose",
    "Mpsci.fisherExact.pvalue_swap_rows",
    "Mpsci.fisherExact.pvalue_swap_cols"
   ],
   "note": ""
  },
  {
   "property": "C15",
   "status": "proved",
   "theorems": [
    "Mpsci.fun_.logbinomial_eq",
    "Mpsci.fun_.logbinomial_raises"
   ],
   "note": ""
  },
  {
   "property": "C16",
   "status": "proved",
   "theorems": [
    "Mpsci.fun_.logsumexp_eq",
    "Mpsci.fun_.logsumexp_weights_eq",
    "Mpsci.fun_.logsumexp_shift",
    "Mpsci.fun_.logsumexp_edge",
    "Mpsci.fun_.logsumexp_truncates"
   ],
   "note": "Also proved: the input [-inf] gives nan, and a weight list of another length is silently cut to the shorter one."
  },
  {
   "property": "C17",
   "status": "proved",
   "theorems": [
    "Mpsci.fun_.pow1pm1_eq",
    "Mpsci.fun_.invPow1pm1_pow1pm1",
    "Mpsci.fun_.pow1pm1_invPow1pm1",
    "Mpsci.fun_.invPowm1_inverse",
    "Mpsci.fun_.inverses_raise",
    "Mpsci.fun_.xlogy_spec"
   ],
   "note": ""
  },
  {
   "property": "C18",
   "status": "proved",
   "theorems": [
    "Mpsci.stats.boxcox_value",
    "Mpsci.stats.invBoxcox_boxcox",
    "Mpsci.stats.invBoxcox1p_boxcox1p",
    "Mpsci.stats.boxcox_invBoxcox",
    "Mpsci.stats.boxcox_strictMono",
    "Mpsci.stats.boxcox_one_add"
   ],
   "note": ""
  },
  {
   "property": "C19",
   "status": "proved",
   "theorems": [
    "Mpsci.stats.yeojohnson_value",
    "Mpsci.stats.invYeojohnson_yeojohnson",
    "Mpsci.stats.yeojohnson_invYeojohnson",
    "Mpsci.stats.yeojohnson_strictMono",
    "Mpsci.stats.yeojohnson_sign"
   ],
   "note": ""
  },
  {
   "property": "C20",
   "status": "proved",
   "theorems": [
    "Mpsci.stats.mean_value",
    "Mpsci.stats.gmean_hmean_value",
    "Mpsci.stats.pmean_value",
    "Mpsci.stats.pmean_between",
    "Mpsci.stats.means_between",
    "Mpsci.stats.mean_between",
    "Mpsci.stats.means_const",
    "Mpsci.stats.means_scale_weights",
    "Mpsci.stats.means_replicated",
    "Mpsci.stats.pmean_inf_ignores_weights",
    "Mpsci.stats.mean_errors"
   ],
   "note": "pmean with p = +inf or -inf ignores zero weights (pmean_inf_ignores_weights)."
  },
  {
   "property": "C21",
   "status": "proved",
   "theorems": [
    "Mpsci.stats.hm_le_gm_le_am",
    "Mpsci.stats.pmean_mono"
   ],
   "note": ""
  },
  {
   "property": "C22",
   "status": "partial",
   "theorems": [
    "Mpsci.stats.lehmerMean_partial",
    "Mpsci.stats.lehmerMean_half",
    "Mpsci.stats.lehmerMean_half_wrong",
    "Mpsci.stats.lehmerMean_raises"
   ],
   "note": "Proved for every finite p except p = 1/2, where the code returns the geometric mean, which is not the Lehmer mean (lehmerMean_half_wrong)."
  },
  {
   "property": "C23",
   "status": "proved",
   "theorems": [
    "Mpsci.stats.var_value",
    "Mpsci.stats.var_nonneg",
    "Mpsci.stats.var_shift",
    "Mpsci.stats.var_scale",
    "Mpsci.stats.variation_scale",
    "Mpsci.stats.var_errors"
   ],
   "note": ""
  },
  {
   "property": "C24",
   "status": "proved",
   "theorems": [
    "Mpsci.stats.uniqueCounts_spec",
    "Mpsci.stats.uniqueCounts_count",
    "Mpsci.stats.uniqueCounts_nil"
   ],
   "note": ""
  },
  {
   "property": "C25",
   "status": "proved",
   "theorems": [
    "Mpsci.stats.pearsonr_value",
    "Mpsci.stats.pearsonr_symm",
    "Mpsci.stats.pearsonr_affine",
    "Mpsci.stats.pearsonr_extreme",
    "Mpsci.stats.pearsonr_nan",
    "Mpsci.stats.pearsonr_raises"
   ],
   "note": ""
  },
  {
   "property": "C26",
   "status": "proved",
   "theorems": [
    "Mpsci.stats.anova_value",
    "Mpsci.stats.anova_affine",
    "Mpsci.stats.anova_perm",
    "Mpsci.stats.anova_errors"
   ],
   "note": ""
  },
  {
   "property": "C27",
   "status": "proved",
   "theorems": [
    "Mpsci.stats.chisquare_spec",
    "Mpsci.stats.gtest_spec",
    "Mpsci.stats.gtest_lower_bound",
    "Mpsci.stats.gof_raises",
    "Mpsci.stats.chisquare_zero_expected"
   ],
   "note": ""
  },
  {
   "property": "C28",
   "status": "proved",
   "theorems": [
    "Mpsci.common.findBracket_mono",
    "Mpsci.common.findBracket_anti",
    "Mpsci.common.expandNeginfInf_brackets",
    "Mpsci.common.expand0Inf_brackets",
    "Mpsci.common.expand_rejects"
   ],
   "note": ""
  },
  {
   "property": "C29",
   "status": "partial",
   "theorems": [
    "Mpsci.betabinomial.nll_spec",
    "Mpsci.betabinomial.nll_badCounts",
    "Mpsci.betabinomial.mle_isMleA",
    "Mpsci.betabinomial.mle_isMleB",
    "Mpsci.binomial.nll_spec",
    "Mpsci.binomial.nll_badCounts",
    "Mpsci.binomial.mle_ignores_counts",
    "Mpsci.logseries.nll_spec",
    "Mpsci.logseries.nll_badCounts",
    "Mpsci.logseries.mle_isMle",
    "Mpsci.negative_binomial.nll_spec",
    "Mpsci.negative_binomial.nll_badCounts",
    "Mpsci.poisson.nll_spec",
    "Mpsci.poisson.nll_badCounts",
    "Mpsci.poisson.mle_counts",
    "Mpsci.poisson.mle_badCounts"
   ],
   "note": "Proved for poisson, binomial, negative_binomial, logseries and betabinomial where modelled; binomial.mle with p fixed ignores counts (mle_ignores_counts)."
  },
  {
   "property": "C30",
   "status": "partial",
   "theorems": [
    "Mpsci.benktander1.nll_spec",
    "Mpsci.benktander1.nll_rejects",
    "Mpsci.benktander2.nll_spec",
    "Mpsci.benktander2.nll_rejects",
    "Mpsci.genpareto.nll_spec",
    "Mpsci.genpareto.nll_rejects",
    "Mpsci.hypsecant.nll_spec",
    "Mpsci.lognormal.nll_spec",
    "Mpsci.lognormal.nll_rejects",
    "Mpsci.normal.nll_spec",
    "Mpsci.rel_breitwigner.moment_rejects",
    "Mpsci.benini.nll_spec",
    "Mpsci.benini.nll_rejects",
    "Mpsci.benini.nll_invalid",
    "Mpsci.beta.nll_spec",
    "Mpsci.beta.nll_rejects",
    "Mpsci.beta.nll_invalid",
    "Mpsci.betabinomial.nll_spec",
    "Mpsci.betabinomial.nll_rejects",
    "Mpsci.betabinomial.nll_invalid",
    "Mpsci.betaprime.nll_spec",
    "Mpsci.betaprime.nll_rejects",
    "Mpsci.betaprime.nll_invalid",
    "Mpsci.binomial.nll_spec",
    "Mpsci.binomial.nll_rejects",
    "Mpsci.binomial.nll_invalid",
    "Mpsci.burr12.nll_spec",
    "Mpsci.burr12.nll_rejects",
    "Mpsci.burr12.nll_invalid",
    "Mpsci.gamma.nll_spec",
    "Mpsci.gamma.nll_rejects",
    "Mpsci.gamma.nll_invalid",
    "Mpsci.gompertz.nll_spec",
    "Mpsci.gompertz.nll_rejects",
    "Mpsci.gompertz.nll_invalid",
    "Mpsci.gumbel_max.nll_spec",
    "Mpsci.gumbel_max.nll_rejects",
    "Mpsci.gumbel_min.nll_spec",
    "Mpsci.gumbel_min.nll_rejects",
    "Mpsci.gumbel_min.nll_is_mirrored",
    "Mpsci.kumaraswamy.nll_spec",
    "Mpsci.kumaraswamy.nll_rejects",
    "Mpsci.kumaraswamy.nll_invalid",
    "Mpsci.loggamma.nll_spec",
    "Mpsci.loggamma.nll_invalid",
    "Mpsci.logistic.nll_spec",
    "Mpsci.logistic.nll_rejects",
    "Mpsci.logseries.nll_spec",
    "Mpsci.logseries.nll_rejects",
    "Mpsci.logseries.nll_invalid",
    "Mpsci.nakagami.nll_spec",
    "Mpsci.nakagami.nll_rejects",
    "Mpsci.nakagami.nll_invalid",
    "Mpsci.negative_binomial.nll_spec",
    "Mpsci.negative_binomial.nll_small_r",
    "Mpsci.negative_binomial.nll_rejects",
    "Mpsci.negative_binomial.nll_invalid",
    "Mpsci.pareto.nll_spec",
    "Mpsci.pareto.nll_rejects",
    "Mpsci.pareto.nll_invalid",
    "Mpsci.poisson.nll_spec",
    "Mpsci.poisson.nll_rejects",
    "Mpsci.poisson.nll_invalid",
    "Mpsci.weibull_min.nll_spec",
    "Mpsci.weibull_min.nll_rejects",
    "Mpsci.weibull_min.nll_invalid",
    "Mpsci.weibull_max.nll_spec",
    "Mpsci.weibull_max.nll_rejects",
    "Mpsci.weibull_max.nll_invalid"
   ],
   "note": "Proved for the modelled distributions that offer nll; data off the support and functions that do not validate are recorded in DESIGN.md section 5."
  },
  {
   "property": "C31",
   "status": "partial",
   "theorems": [
    "Mpsci.lognormal.mle_isMle",
    "Mpsci.lognormal.fit_rejects",
    "Mpsci.normal.mle_eq",
    "Mpsci.normal.mle_empty",
    "Mpsci.normal.mle_isMle",
    "Mpsci.normal.mle_constant",
    "Mpsci.beta.fit_rejects",
    "Mpsci.beta.fit_empty",
    "Mpsci.beta.mle_fixed_bad",
    "Mpsci.beta.mle_fixed",
    "Mpsci.beta.mle_fixedB_partial",
    "Mpsci.beta.mle_fixedA_partial",
    "Mpsci.beta.mle_free_partial",
    "Mpsci.betabinomial.mle_rejects",
    "Mpsci.betabinomial.mle_fixed",
    "Mpsci.betabinomial.mle_isMleA",
    "Mpsci.betabinomial.mle_isMleB",
    "Mpsci.betabinomial.mle_exists",
    "Mpsci.betabinomial.mle_zeros",
    "Mpsci.betabinomial.mle_isMleAB_partial",
    "Mpsci.betaprime.mle_rejects",
    "Mpsci.betaprime.mle_fixed",
    "Mpsci.betaprime.mle_fixed_bad",
    "Mpsci.betaprime.mle_fixedScale_partial",
    "Mpsci.betaprime.mle_fixedBScale_partial",
    "Mpsci.betaprime.mle_fixedAScale_partial",
    "Mpsci.betaprime.mle_fixedAB_partial",
    "Mpsci.betaprime.mle_fixedA_partial",
    "Mpsci.betaprime.mle_fixedB_partial",
    "Mpsci.betaprime.mle_free_partial",
    "Mpsci.binomial.mle_fixedN",
    "Mpsci.binomial.mle_zero",
    "Mpsci.binomial.mle_fixedP_partial",
    "Mpsci.binomial.mle_free_partial",
    "Mpsci.binomial.mle_errors",
    "Mpsci.binomial.mle_ignores_counts",
    "Mpsci.burr12.mle_fixedCScale",
    "Mpsci.burr12.mle_fixedCD",
    "Mpsci.burr12.mle_fixedDScale",
    "Mpsci.burr12.mle_fixedC_partial",
    "Mpsci.burr12.mle_fixedScale_partial",
    "Mpsci.burr12.mle_fixedScale",
    "Mpsci.burr12.mle_fixedScale_diverges",
    "Mpsci.burr12.mle_fixedD_partial",
    "Mpsci.burr12.mle_free_partial",
    "Mpsci.burr12.mle_errors",
    "Mpsci.burr12.mle_diverges",
    "Mpsci.burr12.scaleBracket_zero",
    "Mpsci.gamma.mle_fixedK",
    "Mpsci.gamma.mle_fixedScale_partial",
    "Mpsci.gamma.mle_fixedScale_sound_partial",
    "Mpsci.gamma.mle_free_partial",
    "Mpsci.gamma.mle_converged",
    "Mpsci.gamma.mle_equal",
    "Mpsci.gamma.mle_empty",
    "Mpsci.gompertz.mle_fixedScale",
    "Mpsci.gompertz.mle_fixedShape_partial",
    "Mpsci.gompertz.mle_isMle_partial",
    "Mpsci.gompertz.mle_errors",
    "Mpsci.gumbel_max.mle_isMle",
    "Mpsci.gumbel_max.mle_fixedScale",
    "Mpsci.gumbel_max.mle_fixedLoc_partial",
    "Mpsci.gumbel_max.mle_constant",
    "Mpsci.gumbel_max.mle_unchecked_scale",
    "Mpsci.gumbel_min.mle_isMle",
    "Mpsci.gumbel_min.mle_fixedScale",
    "Mpsci.gumbel_min.mle_fixedLoc_partial",
    "Mpsci.gumbel_min.mle_constant",
    "Mpsci.hypsecant.mle_isMle_partial",
    "Mpsci.hypsecant.mle_loc_isMle_partial",
    "Mpsci.hypsecant.mle_loc_isMle",
    "Mpsci.hypsecant.mle_scale_isMle_partial",
    "Mpsci.hypsecant.mle_fixed",
    "Mpsci.hypsecant.mle_negative_scale",
    "Mpsci.benktander1.mle_stationary_partial",
    "Mpsci.benktander1.mle_rejects_fixed",
    "Mpsci.benktander1.mle_rejects",
    "Mpsci.kumaraswamy.mle_fixedA",
    "Mpsci.kumaraswamy.mle_fixedB_partial",
    "Mpsci.kumaraswamy.mle_free_partial",
    "Mpsci.kumaraswamy.mle_exists",
    "Mpsci.kumaraswamy.mle_constant",
    "Mpsci.kumaraswamy.mle_errors",
    "Mpsci.laplace.mle_isMle",
    "Mpsci.laplace.mle_fixedLoc",
    "Mpsci.laplace.mle_fixedScale",
    "Mpsci.laplace.mle_fixed_or_rejected",
    "Mpsci.laplace.mle_empty",
    "Mpsci.uniform.mle_isMle",
    "Mpsci.uniform.mle_constant",
    "Mpsci.loggamma.mle_fixed",
    "Mpsci.loggamma.mle_fixedTheta_partial",
    "Mpsci.loggamma.mle_fixedTheta_sound_partial",
    "Mpsci.loggamma.mle_fixedK_partial",
    "Mpsci.loggamma.mle_free_partial",
    "Mpsci.loggamma.mle_empty",
    "Mpsci.logistic.mle_isMle_partial",
    "Mpsci.logseries.mle_isMle",
    "Mpsci.logseries.mle_exists",
    "Mpsci.logseries.mle_ones",
    "Mpsci.nakagami.mle_fixedNu",
    "Mpsci.nakagami.mle_fixedScale_partial",
    "Mpsci.nakagami.mle_free_partial",
    "Mpsci.nakagami.mle_free_exists",
    "Mpsci.nakagami.mle_equal",
    "Mpsci.nakagami.mle_rejects",
    "Mpsci.negative_binomial.mle_fixedR",
    "Mpsci.negative_binomial.mle_zero",
    "Mpsci.negative_binomial.mle_fixedP_partial",
    "Mpsci.negative_binomial.mle_fixedP_int_partial",
    "Mpsci.negative_binomial.mle_free_partial",
    "Mpsci.negative_binomial.mle_errors",
    "Mpsci.pareto.mle_fixedLoc",
    "Mpsci.pareto.mle_fixedScale",
    "Mpsci.pareto.mle_fixedShapeLoc",
    "Mpsci.pareto.mle_fixedShapeScale",
    "Mpsci.pareto.mle_fixedShape_partial",
    "Mpsci.pareto.mle_allFixed",
    "Mpsci.pareto.mle_allFree_partial",
    "Mpsci.pareto.mle_ignores_loc",
    "Mpsci.pareto.mle_ignores_loc_example",
    "Mpsci.pareto.mle_zeroScale",
    "Mpsci.pareto.mle_constant",
    "Mpsci.poisson.mle_isMle",
    "Mpsci.poisson.mle_zero",
    "Mpsci.weibull_min.mle_fixedK",
    "Mpsci.weibull_min.mle_fixedScale_partial",
    "Mpsci.weibull_min.mle_exists",
    "Mpsci.weibull_min.mle_constant",
    "Mpsci.weibull_min.mle_isMle_partial",
    "Mpsci.weibull_min.mle_errors",
    "Mpsci.weibull_max.mle_fixedK",
    "Mpsci.weibull_max.mle_fixedScale_partial",
    "Mpsci.weibull_max.mle_exists",
    "Mpsci.weibull_max.mle_constant",
    "Mpsci.weibull_max.mle_isMle_partial",
    "Mpsci.weibull_max.mle_errors"
   ],
   "note": "Proved for the closed-form estimators and for the bracketed Gumbel search; for the secant and Newton searches proved under the assumption that the value returned is a root. Constant data and unchecked fixed scales are recorded as failures."
  },
  {
   "property": "C32",
   "status": "partial",
   "theorems": [
    "Mpsci.lognormal.fit_rejects",
    "Mpsci.lognormal.mom_matches",
    "Mpsci.lognormal.mom_constant",
    "Mpsci.beta.fit_rejects",
    "Mpsci.beta.fit_empty",
    "Mpsci.beta.mom_matches",
    "Mpsci.beta.mom_equal",
    "Mpsci.gamma.mom_matches",
    "Mpsci.gumbel_max.mom_matches",
    "Mpsci.gumbel_min.mom_matches",
    "Mpsci.laplace.mom_matches",
    "Mpsci.uniform.mom_matches",
    "Mpsci.logistic.mom_matches"
   ],
   "note": "For data that are not all equal; constant data are recorded as failures."
  },
  {
   "property": "C33",
   "status": "partial",
   "theorems": [
    "Mpsci.betabinomial.rejects",
    "Mpsci.betabinomial.support_spec",
    "Mpsci.betabinomial.isPmf",
    "Mpsci.binomial.isPmf",
    "Mpsci.binomial.pmf_raises",
    "Mpsci.binomial.rejects",
    "Mpsci.binomial.support_spec",
    "Mpsci.fishers_noncentral_hypergeometric.isPmf",
    "Mpsci.fishers_noncentral_hypergeometric.pmf_counts",
    "Mpsci.fishers_noncentral_hypergeometric.pmf_pos",
    "Mpsci.fishers_noncentral_hypergeometric.supportPmf_spec",
    "Mpsci.fishers_noncentral_hypergeometric.rejects",
    "Mpsci.gauss_kuzmin.isPmf",
    "Mpsci.hypergeometric.isPmf",
    "Mpsci.hypergeometric.pmf_pos",
    "Mpsci.hypergeometric.pmf_counts",
    "Mpsci.hypergeometric.support_spec",
    "Mpsci.hypergeometric.supportPmf_spec",
    "Mpsci.hypergeometric.rejects",
    "Mpsci.logseries.rejects",
    "Mpsci.logseries.isPmf",
    "Mpsci.logseries.p_zero",
    "Mpsci.logseries.p_one",
    "Mpsci.negative_binomial.rejects",
    "Mpsci.negative_binomial.isPmf",
    "Mpsci.negative_binomial.pmf_small_r",
    "Mpsci.negative_binomial.p_one",
    "Mpsci.negative_hypergeometric.isPmf",
    "Mpsci.negative_hypergeometric.pmf_pos",
    "Mpsci.negative_hypergeometric.support_spec",
    "Mpsci.negative_hypergeometric.supportPmf_spec",
    "Mpsci.negative_hypergeometric.rejects",
    "Mpsci.poisson.isPmf",
    "Mpsci.poisson.rejects",
    "Mpsci.trunc_discrete_exp.rejects",
    "Mpsci.trunc_discrete_exp.isPmf",
    "Mpsci.trunc_discrete_exp.support_eval",
    "Mpsci.trunc_discrete_exp.n_zero"
   ],
   "note": "Proved for the discrete distributions modelled; binomial.pmf raises for some values off the support (binomial.pmf_raises) and trunc_discrete_exp accepts n = 0, where there is no mass."
  },
  {
   "property": "C34",
   "status": "partial",
   "theorems": [
    "Mpsci.betabinomial.isSumCdf",
    "Mpsci.betabinomial.isSumSf",
    "Mpsci.binomial.isSumCdf",
    "Mpsci.binomial.isSumSf",
    "Mpsci.binomial.isSumCdf_sumpmf",
    "Mpsci.binomial.cdf_method",
    "Mpsci.fishers_noncentral_hypergeometric.isSumCdf",
    "Mpsci.fishers_noncentral_hypergeometric.isSumSf",
    "Mpsci.gauss_kuzmin.isSumCdf",
    "Mpsci.gauss_kuzmin.isSumSf",
    "Mpsci.hypergeometric.isSumSf_partial",
    "Mpsci.hypergeometric.isSumCdf_partial",
    "Mpsci.logseries.isSumCdf",
    "Mpsci.logseries.isSumSf",
    "Mpsci.negative_binomial.p_one",
    "Mpsci.negative_binomial.isSumCdf",
    "Mpsci.negative_binomial.isSumSf",
    "Mpsci.negative_hypergeometric.isSumCdf",
    "Mpsci.negative_hypergeometric.isSumSf",
    "Mpsci.poisson.isSumCdf",
    "Mpsci.poisson.isSumSf",
    "Mpsci.trunc_discrete_exp.n_zero",
    "Mpsci.trunc_discrete_exp.isSumCdf",
    "Mpsci.trunc_discrete_exp.isSumSf"
   ],
   "note": "Proved for the discrete distributions modelled; hypergeometric only where the code's series is evaluated inside the support (isSumCdf_partial, isSumSf_partial)."
  },
  {
   "property": "C35",
   "status": "partial",
   "theorems": [
    "Mpsci.betabinomial.isLogPmf",
    "Mpsci.binomial.isLogPmf",
    "Mpsci.binomial.logpmf_off_support",
    "Mpsci.binomial.logpmf_nan",
    "Mpsci.gauss_kuzmin.isLogPmf",
    "Mpsci.hypergeometric.isLogPmf_partial",
    "Mpsci.hypergeometric.logpmf_far",
    "Mpsci.logseries.isLogPmf",
    "Mpsci.logseries.p_zero",
    "Mpsci.negative_binomial.pmf_small_r",
    "Mpsci.negative_binomial.isLogPmf",
    "Mpsci.negative_hypergeometric.isLogPmf",
    "Mpsci.negative_hypergeometric.logpmf_zero",
    "Mpsci.poisson.isLogPmf",
    "Mpsci.trunc_discrete_exp.isLogPmf"
   ],
   "note": "Proved for the discrete distributions modelled; arguments at which logpmf raises are recorded in DESIGN.md section 5."
  },
  {
   "property": "C36",
   "status": "partial",
   "theorems": [
    "Mpsci.betabinomial.isMode",
    "Mpsci.binomial.isMode",
    "Mpsci.fishers_noncentral_hypergeometric.isMode",
    "Mpsci.gauss_kuzmin.isMode",
    "Mpsci.gauss_kuzmin.invcdf_half",
    "Mpsci.hypergeometric.isMode",
    "Mpsci.logseries.isMode",
    "Mpsci.negative_binomial.p_one",
    "Mpsci.negative_binomial.isMode",
    "Mpsci.negative_binomial.mode_p_zero",
    "Mpsci.negative_hypergeometric.isMode",
    "Mpsci.negative_hypergeometric.mode_fails",
    "Mpsci.poisson.isMode",
    "Mpsci.trunc_discrete_exp.isMode"
   ],
   "note": "Proved for the discrete distributions that offer a mode; negative_hypergeometric.mode is wrong in cases given by mode_fails."
  },
  {
   "property": "C37",
   "status": "partial",
   "theorems": [
    "Mpsci.betabinomial.isMean",
    "Mpsci.betabinomial.isVar",
    "Mpsci.betabinomial.isSkewness",
    "Mpsci.betabinomial.isKurtosis",
    "Mpsci.betabinomial.n_zero",
    "Mpsci.binomial.isMean",
    "Mpsci.binomial.isVar",
    "Mpsci.fishers_noncentral_hypergeometric.isMean",
    "Mpsci.gauss_kuzmin.isMeanInf",
    "Mpsci.gauss_kuzmin.isVarInf",
    "Mpsci.hypergeometric.isMean",
    "Mpsci.hypergeometric.isVar",
    "Mpsci.hypergeometric.var_one",
    "Mpsci.logseries.isMean",
    "Mpsci.logseries.isVar",
    "Mpsci.logseries.isSkewness",
    "Mpsci.logseries.isKurtosis",
    "Mpsci.logseries.p_zero",
    "Mpsci.logseries.p_one",
    "Mpsci.negative_binomial.p_one",
    "Mpsci.negative_binomial.isMean",
    "Mpsci.negative_binomial.isVar",
    "Mpsci.negative_hypergeometric.isMean",
    "Mpsci.negative_hypergeometric.isVar",
    "Mpsci.poisson.isMean",
    "Mpsci.poisson.isVar",
    "Mpsci.poisson.isSkewness",
    "Mpsci.poisson.isKurtosis",
    "Mpsci.trunc_discrete_exp.n_zero",
    "Mpsci.trunc_discrete_exp.isMean",
    "Mpsci.trunc_discrete_exp.isVar",
    "Mpsci.trunc_discrete_exp.isEntropy",
    "Mpsci.argus.isMean",
    "Mpsci.argus.isVar",
    "Mpsci.benktander1.isMean",
    "Mpsci.benktander1.isVar",
    "Mpsci.benktander2.isMean",
    "Mpsci.benktander2.isVar",
    "Mpsci.beta.isMean",
    "Mpsci.beta.isVar",
    "Mpsci.beta.isSkewness",
    "Mpsci.beta.isKurtosis",
    "Mpsci.beta.isEntropy",
    "Mpsci.betaprime.isMean",
    "Mpsci.betaprime.mean_inf",
    "Mpsci.betaprime.isVar",
    "Mpsci.betaprime.var_nan",
    "Mpsci.betaprime.isSkewness",
    "Mpsci.betaprime.skewness_nan",
    "Mpsci.betaprime.isKurtosis",
    "Mpsci.betaprime.kurtosis_nan",
    "Mpsci.betaprime.isEntropy",
    "Mpsci.betaprime.isMoment",
    "Mpsci.chi.isMean",
    "Mpsci.chi.isVar",
    "Mpsci.chi.isEntropy",
    "Mpsci.chi.isMoment",
    "Mpsci.chi2.isMean",
    "Mpsci.chi2.isVar",
    "Mpsci.chi2.isEntropy",
    "Mpsci.chi2.isMoment",
    "Mpsci.cosine.isMean",
    "Mpsci.cosine.isVar",
    "Mpsci.cosine.isSkewness",
    "Mpsci.cosine.isKurtosis",
    "Mpsci.dirichlet.isMean",
    "Mpsci.dirichlet.isCov",
    "Mpsci.fdist.isMean",
    "Mpsci.fdist.mean_inf",
    "Mpsci.fdist.isVar",
    "Mpsci.fdist.var_inf",
    "Mpsci.fdist.isEntropy",
    "Mpsci.folded_normal.isMean",
    "Mpsci.folded_normal.isVar",
    "Mpsci.gamma.isMean",
    "Mpsci.gamma.isVar",
    "Mpsci.gamma.isEntropy",
    "Mpsci.gamma.isSkewness",
    "Mpsci.gamma.isKurtosis",
    "Mpsci.gamma.isMoment",
    "Mpsci.gamma_gompertz.isMean",
    "Mpsci.genhyperbolic.isMean",
    "Mpsci.genhyperbolic.isVar",
    "Mpsci.geninvgauss.isMean",
    "Mpsci.geninvgauss.isVar",
    "Mpsci.geninvgauss.isEntropy",
    "Mpsci.genextreme.isMean",
    "Mpsci.genextreme.isVar",
    "Mpsci.genextreme.isEntropy",
    "Mpsci.genextreme.isSkewness",
    "Mpsci.genextreme.isKurtosis",
    "Mpsci.genextreme.isMoment",
    "Mpsci.genpareto.isMean",
    "Mpsci.genpareto.isVar",
    "Mpsci.genpareto.isEntropy",
    "Mpsci.genpareto.mean_nan",
    "Mpsci.genpareto.var_nan",
    "Mpsci.hypsecant.isMean",
    "Mpsci.hypsecant.isVar",
    "Mpsci.hypsecant.isEntropy",
    "Mpsci.invchi2.isMean",
    "Mpsci.invchi2.mean_nan",
    "Mpsci.invchi2.isVar",
    "Mpsci.invchi2.var_nan",
    "Mpsci.invgamma.isMean",
    "Mpsci.invgamma.mean_nan",
    "Mpsci.invgamma.isVar",
    "Mpsci.invgamma.var_nan",
    "Mpsci.invgamma.isSkewness",
    "Mpsci.invgamma.skewness_nan",
    "Mpsci.invgamma.isKurtosis",
    "Mpsci.invgamma.kurtosis_nan",
    "Mpsci.invgamma.isEntropy",
    "Mpsci.invgamma.isMoment",
    "Mpsci.invgamma.moment_nan",
    "Mpsci.invgauss.isMean",
    "Mpsci.invgauss.isVar",
    "Mpsci.invgauss.isEntropy",
    "Mpsci.invgauss.isMoment",
    "Mpsci.kumaraswamy.isMean",
    "Mpsci.kumaraswamy.isVar",
    "Mpsci.loggamma.isMean",
    "Mpsci.loggamma.isVar",
    "Mpsci.loggamma.isSkewness",
    "Mpsci.loggamma.isKurtosis",
    "Mpsci.lognormal.isMean",
    "Mpsci.lognormal.isVar",
    "Mpsci.lognormal.isSkewness",
    "Mpsci.lognormal.isKurtosis",
    "Mpsci.lognormal.isEntropy",
    "Mpsci.maxwell.isMean",
    "Mpsci.maxwell.isVar",
    "Mpsci.maxwell.isEntropy",
    "Mpsci.nakagami.isMean",
    "Mpsci.nakagami.isVar",
    "Mpsci.nakagami.isEntropy",
    "Mpsci.ncf.isMean",
    "Mpsci.ncf.mean_nan",
    "Mpsci.ncf.isVar",
    "Mpsci.ncf.var_nan",
    "Mpsci.nct.isMoment",
    "Mpsci.nct.moment_nan",
    "Mpsci.nct.isMean",
    "Mpsci.nct.isVar",
    "Mpsci.ncx2.isMean",
    "Mpsci.ncx2.isVar",
    "Mpsci.normal.isMean",
    "Mpsci.normal.isEntropy",
    "Mpsci.rel_breitwigner.isMean",
    "Mpsci.rel_breitwigner.isVar",
    "Mpsci.rice.isMean",
    "Mpsci.rice.isVar",
    "Mpsci.rice.isMoment",
    "Mpsci.slash.mean_fails",
    "Mpsci.studentt.isMean",
    "Mpsci.studentt.mean_fails",
    "Mpsci.studentt.isEntropy",
    "Mpsci.truncnorm.isMean",
    "Mpsci.truncnorm.isVar",
    "Mpsci.truncnorm.isSkewness",
    "Mpsci.truncnorm.isKurtosis",
    "Mpsci.truncnorm.isEntropy",
    "Mpsci.tukeylambda.isQMean",
    "Mpsci.tukeylambda.isQVar",
    "Mpsci.tukeylambda.mean_none",
    "Mpsci.tukeylambda.var_none",
    "Mpsci.tukeylambda.isMean_isVar",
    "Mpsci.uniform.isMean",
    "Mpsci.uniform.isVar",
    "Mpsci.uniform.isEntropy",
    "Mpsci.uniform.moments_reject",
    "Mpsci.laplace.isMean",
    "Mpsci.laplace.isVar",
    "Mpsci.logistic.isMean",
    "Mpsci.logistic.isVar",
    "Mpsci.logistic.isEntropy",
    "Mpsci.half_logistic.isMean",
    "Mpsci.half_logistic.isVar",
    "Mpsci.half_logistic.isEntropy",
    "Mpsci.pareto.isMean",
    "Mpsci.pareto.mean_none",
    "Mpsci.pareto.isVar",
    "Mpsci.pareto.var_none",
    "Mpsci.pareto.isEntropy",
    "Mpsci.gumbel_max.isMean",
    "Mpsci.gumbel_max.isVar",
    "Mpsci.gumbel_min.isMean",
    "Mpsci.gumbel_min.isVar",
    "Mpsci.benini.isMean",
    "Mpsci.benini.isVar",
    "Mpsci.benini.isMoment",
    "Mpsci.benini.moments_validate",
    "Mpsci.loglogistic.isMean",
    "Mpsci.loglogistic.mean_none",
    "Mpsci.loglogistic.isVar",
    "Mpsci.loglogistic.var_none",
    "Mpsci.loglogistic.moments_validate",
    "Mpsci.burr12.isMean",
    "Mpsci.burr12.mean_none",
    "Mpsci.burr12.isVar",
    "Mpsci.burr12.var_none",
    "Mpsci.kumaraswamy.isSkewness",
    "Mpsci.kumaraswamy.isEntropy",
    "Mpsci.cauchy.mean_none",
    "Mpsci.cauchy.var_none",
    "Mpsci.cauchy.isEntropy",
    "Mpsci.exponweib.isMoment",
    "Mpsci.exponweib.isMean",
    "Mpsci.exponweib.isVar",
    "Mpsci.exponweib.moments_validate",
    "Mpsci.gompertz.isMean",
    "Mpsci.gompertz.isVar",
    "Mpsci.gompertz.isEntropy",
    "Mpsci.gompertz.moments_validate",
    "Mpsci.weibull_min.isMean",
    "Mpsci.weibull_min.isVar",
    "Mpsci.weibull_min.isSkewness",
    "Mpsci.weibull_min.isKurtosis",
    "Mpsci.weibull_min.isEntropy",
    "Mpsci.weibull_min.isMoment",
    "Mpsci.weibull_max.isMean",
    "Mpsci.weibull_max.isVar",
    "Mpsci.weibull_max.isSkewness",
    "Mpsci.weibull_max.isKurtosis",
    "Mpsci.weibull_max.isEntropy",
    "Mpsci.weibull_max.isMoment"
   ],
   "note": "Proved for the modelled distributions as integrals or sums of pdf/pmf; the formulas that are wrong are violations, recorded in DESIGN.md section 5 with their negations."
  },
  {
   "property": "C38",
   "status": "partial",
   "theorems": [
    "Mpsci.multivariate_hypergeometric.support_spec",
    "Mpsci.multivariate_hypergeometric.isPmf",
    "Mpsci.multivariate_hypergeometric.pmf_counts",
    "Mpsci.multivariate_hypergeometric.isLogPmf",
    "Mpsci.multivariate_hypergeometric.isMean",
    "Mpsci.multivariate_hypergeometric.isCov",
    "Mpsci.multivariate_hypergeometric.isEntropy",
    "Mpsci.multivariate_hypergeometric.rejects",
    "Mpsci.multivariate_hypergeometric.pmf_fails",
    "Mpsci.multivariate_hypergeometric.pmf_raises",
    "Mpsci.multivariate_hypergeometric.support_empty",
    "Mpsci.multivariate_hypergeometric.support_neg",
    "Mpsci.multivariate_hypergeometric.cov_one",
    "Mpsci.truncnorm.support_eq"
   ],
   "note": "Support, masses, mean, covariance (two or more items) and entropy are proved for every list of colours; the clause that pmf is 0 off the support is false and its negation is proved (pmf_fails, pmf_raises), as are the failures for no colours, a negative sample and one undrawn item."
  },
  {
   "property": "C39",
   "status": "partial",
   "theorems": [
    "Mpsci.oddsRatio.rejects",
    "Mpsci.oddsRatio.zero_margin",
    "Mpsci.oddsRatio.ci_rejects",
    "Mpsci.oddsRatio.sample",
    "Mpsci.oddsRatio.sample_zero_fails",
    "Mpsci.oddsRatio.sample_ci_fails",
    "Mpsci.oddsRatio.conditional_zero",
    "Mpsci.oddsRatio.conditional_inf",
    "Mpsci.oddsRatio.conditional",
    "Mpsci.oddsRatio.ci_two_sided",
    "Mpsci.oddsRatio.ci_less",
    "Mpsci.oddsRatio.ci_greater",
    "Mpsci.oddsRatio.lower_lt_upper",
    "Mpsci.oddsRatio.ci_one_diverges",
    "Mpsci.oddsRatio.ci_zero_diverges"
   ],
   "note": "Proved for every table: validation, zero margins, the sample odds ratio and its p-values for positive entries, the conditional estimate (unique, maximum likelihood) and its intervals, given a root finder that finds zeros in a bracket. The remaining clauses are false and their negations are proved (sample_zero_fails, sample_ci_fails, ci_one_diverges, ci_zero_diverges)."
  },
  {
   "property": "C40",
   "status": "partial",
   "theorems": [
    "Mpsci.beta.intervalProb_spec",
    "Mpsci.beta.intervalProb_rejects",
    "Mpsci.beta.intervalProb_outside",
    "Mpsci.gamma.intervalProb_spec",
    "Mpsci.gamma.intervalProb_rejects",
    "Mpsci.gamma.intervalProb_fails",
    "Mpsci.gamma.intervalProb_complex",
    "Mpsci.laplace.intervalProb_eq",
    "Mpsci.laplace.intervalProb_order",
    "Mpsci.loggamma.intervalProb_spec",
    "Mpsci.loggamma.intervalProb_rejects"
   ],
   "note": "Proved for the modelled distributions; gamma.interval_prob and beta.interval_prob do not clip to the support (negations proved)."
  },
  {
   "property": "C41",
   "status": "partial",
   "theorems": [
    "Mpsci.gauss_kuzmin.inv_ends",
    "Mpsci.argus.support_spec",
    "Mpsci.argus.ends",
    "Mpsci.benini.endPoints_partial",
    "Mpsci.benini.endPoints_nan",
    "Mpsci.benini.support_eq",
    "Mpsci.benktander1.endPoints",
    "Mpsci.benktander2.endPoints_partial",
    "Mpsci.benktander2.endPoint_one",
    "Mpsci.benktander2.endPoint_right",
    "Mpsci.benktander2.endPoint_fails",
    "Mpsci.beta.endPoints",
    "Mpsci.beta.support_spec",
    "Mpsci.betaprime.endPoints",
    "Mpsci.betaprime.invsf_zero_fails",
    "Mpsci.burr12.endPoints",
    "Mpsci.cauchy.endPoints_fail",
    "Mpsci.chi.support_spec",
    "Mpsci.chi2.search_fails",
    "Mpsci.chi2.support_spec",
    "Mpsci.cosine.endPoints",
    "Mpsci.exponweib.endPoints",
    "Mpsci.fdist.endPoints",
    "Mpsci.fdist.endPoints_fails",
    "Mpsci.gamma.endPoints",
    "Mpsci.gamma_gompertz.endPoints",
    "Mpsci.genhyperbolic.support_spec",
    "Mpsci.geninvgauss.support_spec",
    "Mpsci.genexpon.endPoints",
    "Mpsci.genextreme.endPoints_partial",
    "Mpsci.genextreme.endPoints_upper",
    "Mpsci.genpareto.endPoints",
    "Mpsci.gompertz.endPoints",
    "Mpsci.gumbel_max.endPoints",
    "Mpsci.gumbel_min.endPoints",
    "Mpsci.half_logistic.endPoints",
    "Mpsci.hypsecant.endPoints_partial",
    "Mpsci.invchi2.support_spec",
    "Mpsci.invgamma.endPoints",
    "Mpsci.invgamma.support_spec",
    "Mpsci.invgauss.endPoints",
    "Mpsci.invgauss.support_spec",
    "Mpsci.kumaraswamy.endPoints",
    "Mpsci.laplace.endPoints",
    "Mpsci.levy.upper_end_fails",
    "Mpsci.levy.support_fails",
    "Mpsci.loggamma.endPoints",
    "Mpsci.loggamma.support_spec",
    "Mpsci.logistic.endPoints",
    "Mpsci.loglogistic.endPoints",
    "Mpsci.lognormal.endPoints",
    "Mpsci.maxwell.support_spec",
    "Mpsci.maxwell.lower_end_fails",
    "Mpsci.nakagami.support_spec",
    "Mpsci.nct.support_spec",
    "Mpsci.normal.endPoints",
    "Mpsci.pareto.endPoints_partial",
    "Mpsci.pareto.endPoints_fail",
    "Mpsci.power_normal.endPoints",
    "Mpsci.rel_breitwigner.support_spec",
    "Mpsci.slash.endPoints",
    "Mpsci.studentt.endPoints",
    "Mpsci.truncnorm.endPoints",
    "Mpsci.tukeylambda.support_pos",
    "Mpsci.tukeylambda.support_nonpos",
    "Mpsci.uniform.endPoints",
    "Mpsci.weibull_max.endPoints",
    "Mpsci.weibull_min.endPoints"
   ],
   "note": "Proved where the end points are returned; the modules that divide by zero or give nan are recorded as failures with witnesses."
  },
  {
   "property": "C42",
   "status": "partial",
   "theorems": [
    "Mpsci.argus.isLogOf",
    "Mpsci.beta.isLogOf",
    "Mpsci.beta.pole",
    "Mpsci.betaprime.isLogOf",
    "Mpsci.betaprime.pole",
    "Mpsci.chi.pdf_zero_fails",
    "Mpsci.chi.isLogOf",
    "Mpsci.chi2.isLogOf",
    "Mpsci.chi2.logpdf_zero_fails",
    "Mpsci.exponweib.isLogOf_fails",
    "Mpsci.fdist.isLogOf",
    "Mpsci.gamma.isLogOf",
    "Mpsci.gamma.logpdf_zero_fails",
    "Mpsci.genhyperbolic.isLogOf",
    "Mpsci.geninvgauss.isLogOf",
    "Mpsci.genexpon.logpdf_omits_scale",
    "Mpsci.invchi2.isLogOf",
    "Mpsci.invgamma.isLogOf",
    "Mpsci.invgauss.isLogOf",
    "Mpsci.kumaraswamy.logpdf_ends",
    "Mpsci.kumaraswamy.isLogOf_fails",
    "Mpsci.levy.isLogOf",
    "Mpsci.loggamma.isLogOf",
    "Mpsci.maxwell.isLogOf",
    "Mpsci.nakagami.isLogOf",
    "Mpsci.nct.isLogOf",
    "Mpsci.rel_breitwigner.isLogOf",
    "Mpsci.studentt.isLogOf",
    "Mpsci.tukeylambda.isLogOf",
    "Mpsci.vonmises.isLogOf"
   ],
   "note": "Proved where logpdf is the logarithm of pdf; the end points at which it is not are recorded in DESIGN.md section 5 with their negations."
  },
  {
   "property": "C43",
   "status": "proved",
   "theorems": [
    "Mpsci.gamma.nllGrad_spec",
    "Mpsci.gamma.nllHess_spec",
    "Mpsci.gamma.nllInvhess_spec",
    "Mpsci.nakagami.nllGrad_spec"
   ],
   "note": ""
  },
  {
   "property": "C44",
   "status": "partial",
   "theorems": [
    "Mpsci.fishers_noncentral_hypergeometric.cache_transparent_partial",
    "Mpsci.fishers_noncentral_hypergeometric.cache_corrupted"
   ],
   "note": "Proved for every history of calls and cache evictions in which no caller writes to a returned list (cache_transparent_partial); with such a write the property is false (cache_corrupted)."
  },
  {
   "property": "C45",
   "status": "proved",
   "theorems": [
    "Mpsci.dirichlet.rejects",
    "Mpsci.dirichlet.mean_spec",
    "Mpsci.dirichlet.cov_spec",
    "Mpsci.dirichlet.cov_properties",
    "Mpsci.dirichlet.isMean",
    "Mpsci.dirichlet.isCov"
   ],
   "note": ""
  },
  {
   "property": "C46",
   "status": "partial",
   "theorems": [
    "Mpsci.fn.mpBisect_ends_partial",
    "Mpsci.fn.mpBisect_rejects",
    "Mpsci.fn.mpBisect_never_ends",
    "Mpsci.fn.betaincinv_bracket",
    "Mpsci.fn.betaincinv_bisect",
    "Mpsci.fn.betaincinv_edges"
   ],
   "note": "Termination and a bracketed sign change are proved when both ends are on one side of zero (as in betaincinv); for brackets around zero the loop need not end (mpBisect_never_ends)."
  },
  {
   "property": "C47",
   "status": "proved",
   "theorems": [
    "Mpsci.nct.polyCoeffs_spec",
    "Mpsci.nct.noncentralMoment_spec",
    "Mpsci.nct.noncentralMoment_edges",
    "Mpsci.nct.isMoment",
    "Mpsci.nct.moment_nan",
    "Mpsci.gumbel_max.mle_unchecked_scale"
   ],
   "note": ""
  },
  {
   "property": "C48",
   "status": "partial",
   "theorems": [
    "Mpsci.argus.atInfinities",
    "Mpsci.benini.atInfinities",
    "Mpsci.benktander1.atInfinities_partial",
    "Mpsci.benktander1.atInfinity_fails",
    "Mpsci.benktander2.atInfinities_partial",
    "Mpsci.benktander2.atInfinity_fails",
    "Mpsci.beta.atInfinities",
    "Mpsci.betaprime.atInfinities",
    "Mpsci.burr12.atInfinities",
    "Mpsci.cauchy.atInfinities",
    "Mpsci.chi.atInfinities",
    "Mpsci.chi2.atInfinities",
    "Mpsci.cosine.atInfinities",
    "Mpsci.exponweib.atInfinities",
    "Mpsci.fdist.atInfinities_partial",
    "Mpsci.folded_normal.atInfinities",
    "Mpsci.gamma.atInfinities",
    "Mpsci.gamma_gompertz.atInfinities",
    "Mpsci.genhyperbolic.atInfinities",
    "Mpsci.geninvgauss.atInfinities",
    "Mpsci.genexpon.atInfinity_partial",
    "Mpsci.genexpon.atNegInf_fails",
    "Mpsci.genextreme.atInfinities",
    "Mpsci.genpareto.atInfinities",
    "Mpsci.gompertz.atInfinities",
    "Mpsci.gumbel_max.atInfinities",
    "Mpsci.gumbel_min.atInfinities",
    "Mpsci.half_logistic.atInfinities",
    "Mpsci.hypsecant.atInfinities",
    "Mpsci.invchi2.atInfinities",
    "Mpsci.invgamma.atInfinities",
    "Mpsci.invgauss.atNegInfinity",
    "Mpsci.invgauss.atInfinities_fails",
    "Mpsci.kumaraswamy.atInfinities",
    "Mpsci.laplace.atInfinities",
    "Mpsci.levy.atInfinities",
    "Mpsci.loggamma.atInfinities",
    "Mpsci.logistic.atInfinities",
    "Mpsci.loglogistic.atInfinities",
    "Mpsci.lognormal.atInfinities_partial",
    "Mpsci.maxwell.atInfinities",
    "Mpsci.nakagami.atInfinities",
    "Mpsci.ncx2.atInfinities",
    "Mpsci.normal.atInfinities",
    "Mpsci.pareto.atInfinities",
    "Mpsci.power_normal.atInfinities",
    "Mpsci.rel_breitwigner.atInfinities",
    "Mpsci.rice.atInfinities",
    "Mpsci.slash.atInfinities",
    "Mpsci.studentt.atInfinities",
    "Mpsci.truncnorm.atInfinities",
    "Mpsci.tukeylambda.atInfinities",
    "Mpsci.tukeylambda.cdf_ninf_raises",
    "Mpsci.uniform.atInfinities",
    "Mpsci.weibull_max.atInfinities",
    "Mpsci.weibull_min.atInfinities"
   ],
   "note": "Proved where the code returns the limits; benktander1, benktander2, genexpon and lognormal fail at an infinity (negations proved)."
  },
  {
   "property": "C49",
   "status": "proved",
   "theorems": [
    "Mpsci.stats.pearsonr_pvalues",
    "Mpsci.stats.pearsonr_two"
   ],
   "note": ""
  },
  {
   "property": "C50",
   "status": "partial",
   "theorems": [
    "Mpsci.beta.isMoment",
    "Mpsci.beta.moment_negative",
    "Mpsci.beta.moments_agree",
    "Mpsci.betaprime.isMoment",
    "Mpsci.betaprime.moment_nan",
    "Mpsci.betaprime.moment_negative",
    "Mpsci.betaprime.moments_agree",
    "Mpsci.chi.isMoment",
    "Mpsci.chi.moment_negative",
    "Mpsci.chi.moments_agree",
    "Mpsci.chi2.isMoment",
    "Mpsci.chi2.moment_negative",
    "Mpsci.chi2.moments_agree",
    "Mpsci.gamma.isMoment",
    "Mpsci.gamma.moment_negative",
    "Mpsci.gamma.moments_agree",
    "Mpsci.genextreme.moment_rejects",
    "Mpsci.genextreme.isMoment",
    "Mpsci.genextreme.moment_raises",
    "Mpsci.invgamma.isMoment",
    "Mpsci.invgamma.moment_nan",
    "Mpsci.invgamma.moment_rejects",
    "Mpsci.invgauss.isMoment",
    "Mpsci.invgauss.moment_rejects",
    "Mpsci.kumaraswamy.isMoment",
    "Mpsci.kumaraswamy.noncentralMoment_rejects",
    "Mpsci.lognormal.isMoment",
    "Mpsci.lognormal.moment_negative",
    "Mpsci.nct.mean_partial",
    "Mpsci.nct.mean_negative_nc",
    "Mpsci.nct.var_spec",
    "Mpsci.nct.isMoment",
    "Mpsci.rel_breitwigner.isMoment",
    "Mpsci.rel_breitwigner.moment_inf",
    "Mpsci.rice.isMoment",
    "Mpsci.rice.moment_mean_var",
    "Mpsci.rice.moment_negative",
    "Mpsci.tukeylambda.isQMoment",
    "Mpsci.tukeylambda.isMoment",
    "Mpsci.tukeylambda.moment_rejects",
    "Mpsci.tukeylambda.moment_one_fails",
    "Mpsci.tukeylambda.moment_two_raises",
    "Mpsci.uniform.isMoment",
    "Mpsci.uniform.moment_rejects",
    "Mpsci.benini.isMoment",
    "Mpsci.benini.moments_validate",
    "Mpsci.loglogistic.isMoment",
    "Mpsci.loglogistic.moment_none",
    "Mpsci.loglogistic.moment_rejects",
    "Mpsci.loglogistic.moments_validate",
    "Mpsci.exponweib.isMoment",
    "Mpsci.exponweib.isMean",
    "Mpsci.exponweib.isVar",
    "Mpsci.exponweib.moments_validate",
    "Mpsci.weibull_min.isMoment",
    "Mpsci.weibull_min.moment_rejects",
    "Mpsci.weibull_min.moment_validates",
    "Mpsci.weibull_max.isMoment",
    "Mpsci.weibull_max.moment_rejects",
    "Mpsci.weibull_max.moment_validates"
   ],
   "note": "Proved for the distributions modelled that offer noncentral_moment; some functions do not validate the order or, for the noncentral t, mean takes the logarithm of nc, which leaves the reals for negative nc (nct.mean_negative_nc)."
  },
  {
   "property": "C51",
   "status": "proved",
   "theorems": [
    "Mpsci.benini.isLogOf_cdf",
    "Mpsci.burr12.isLogOf_cdf",
    "Mpsci.burr12.isLogOf_sf",
    "Mpsci.genextreme.isLogOf_cdf",
    "Mpsci.genextreme.isLogOf_sf",
    "Mpsci.invgauss.isLogOf_cdf",
    "Mpsci.invgauss.isLogOf_sf"
   ],
   "note": ""
  },
  {
   "property": "C52",
   "status": "partial",
   "theorems": [
    "Mpsci.fun_.digammainv_partial",
    "Mpsci.fun_.digammainv_sound_partial",
    "Mpsci.fun_.digammainv_exists",
    "Mpsci.fun_.bracket_fails"
   ],
   "note": "Proved for y <= -3/8 and y > -1/8 given a root finder that finds zeros in a bracket, and for all y if the value returned is a positive zero; at y = -1/8 the bracket misses the solution (bracket_fails)."
  },
  {
   "property": "C53",
   "status": "proved",
   "theorems": [
    "Mpsci.chi2.inverts_cdf_k",
    "Mpsci.chi2.inverts_sf_k"
   ],
   "note": "Given a bisection that finds the root of a bracketed sign change (BisectFinder)."
  },
  {
   "property": "C54",
   "status": "partial",
   "theorems": [
    "Mpsci.stats.boxcoxLlf_isProfile",
    "Mpsci.stats.yeojohnsonLlf_isProfile",
    "Mpsci.stats.llf_deriv",
    "Mpsci.stats.boxcoxMle_stationary_partial",
    "Mpsci.stats.yeojohnsonMle_stationary_partial",
    "Mpsci.stats.llf_constant",
    "Mpsci.stats.llf_nil"
   ],
   "note": "The likelihoods are proved completely; for the estimators it is proved that a value returned is a stationary point, given a sound root finder, with mp.diff taken to be the exact derivative."
  },
  {
   "property": "C55",
   "status": "partial",
   "theorems": [
    "Mpsci.stats.pearsonrCi_twoSided",
    "Mpsci.stats.pearsonrCi_oneSided",
    "Mpsci.stats.pearsonrCi_nested",
    "Mpsci.stats.pearsonrCi_rejects",
    "Mpsci.stats.pearsonrCi_few",
    "Mpsci.stats.pearsonrCi_reversed"
   ],
   "note": "Proved for 0 < alpha < 1; alpha is not validated, and the two-sided interval comes out reversed for 1 < alpha < 2 (pearsonrCi_reversed)."
  },
  {
   "property": "C56",
   "status": "partial",
   "theorems": [
    "Mpsci.vonmises.isCircular",
    "Mpsci.vonmises.isDensity",
    "Mpsci.vonmises.isEntropy",
    "Mpsci.vonmises.negative_kappa"
   ],
   "note": "Proved for kappa > 0 (density and entropy for every kappa); a negative kappa is not rejected and gives a wrong circular mean and variance (vonmises.negative_kappa)."
  },
  {
   "property": "C57",
   "status": "proved",
   "theorems": [
    "Mpsci.fun_.hermiteE_spec",
    "Mpsci.fun_.hermiteE_rec"
   ],
   "note": ""
  },
  {
   "property": "C58",
   "status": "proved",
   "theorems": [
    "Mpsci.fun_.sphericalBesselj_closed",
    "Mpsci.fun_.sphericalBessely_closed",
    "Mpsci.fun_.sphericalBesseli_closed",
    "Mpsci.fun_.sphericalBesselk_closed",
    "Mpsci.fun_.sphericalBesselj_rec",
    "Mpsci.fun_.sphericalBesseli_rec",
    "Mpsci.fun_.sphericalBesselk_rec",
    "Mpsci.fun_.sphericalBessely_rec"
   ],
   "note": ""
  },
  {
   "property": "C59",
   "status": "partial",
   "theorems": [
    "Mpsci.fun_.wrightBessel_spec",
    "Mpsci.fun_.wrightBessel_rejects",
    "Mpsci.fun_.wrightBessel_one_neg"
   ],
   "note": "Proved wherever the code stays in the reals; for rho = 1 and negative z it takes the square root of a negative number (fun_.wrightBessel_one_neg)."
  },
  {
   "property": "C60",
   "status": "partial",
   "theorems": [
    "Mpsci.fun_.rootsLegendre_closed",
    "Mpsci.fun_.rootsLegendre_rejects",
    "Mpsci.fun_.rootsLegendre_partial",
    "Mpsci.fun_.rootsLegendre_sound",
    "Mpsci.fun_.rootApprox_spec"
   ],
   "note": "n <= 3 is proved outright; for every larger n it is proved that zeros of the Legendre polynomial found in decreasing order give the rule, and that whatever is returned in increasing order is the rule. That the secant search from the starting points finds these zeros is assumed."
  },
  {
   "property": "C61",
   "status": "proved",
   "theorems": [
    "Mpsci.fun_.debye_quad",
    "Mpsci.fun_.debye_nsum",
    "Mpsci.fun_.debye_zero",
    "Mpsci.fun_.debye_rejects"
   ],
   "note": ""
  },
  {
   "property": "C62",
   "status": "proved",
   "theorems": [
    "Mpsci.fun_.marcumq_spec",
    "Mpsci.fun_.marcum_series"
   ],
   "note": ""
  },
  {
   "property": "C63",
   "status": "proved",
   "theorems": [
    "Mpsci.ncf.isCdf",
    "Mpsci.ncf.isDensity",
    "Mpsci.ncf.isMean",
    "Mpsci.ncf.mean_nan",
    "Mpsci.ncf.isVar",
    "Mpsci.ncf.var_nan",
    "Mpsci.ncx2.complementary",
    "Mpsci.ncx2.isDensity",
    "Mpsci.ncx2.isMean",
    "Mpsci.ncx2.isVar",
    "Mpsci.rice.complementary",
    "Mpsci.rice.isDensity",
    "Mpsci.rice.isLogOf",
    "Mpsci.rice.mode_equation",
    "Mpsci.rice.eq_ncx2",
    "Mpsci.rice.isMean",
    "Mpsci.rice.isVar",
    "Mpsci.rice.isMoment"
   ],
   "note": "At the end point 0 the value of pdf is constrained only where the density is bounded there (dfn > 2, k > 2). The central cases lam = 0 and nc = 0 fail in the code (ncx2.pdf_central_fails, ncf.central_fails)."
  },
  {
   "property": "C64",
   "status": "proved",
   "theorems": [
    "Mpsci.nct.isPdf",
    "Mpsci.nct.isRatio",
    "Mpsci.nct.isLogOf",
    "Mpsci.nct.mirror",
    "Mpsci.nct.isMoment",
    "Mpsci.nct.moment_nan",
    "Mpsci.nct.isMean",
    "Mpsci.nct.isVar"
   ],
   "note": "The central case nc = 0 is excluded; there the series starts with a nan term (nct.central_fails). The mean is proved for nc > 0; for negative nc the code leaves the reals (nct.mean_negative_nc)."
  },
  {
   "property": "C65",
   "status": "proved",
   "theorems": [
    "Mpsci.dirichlet.logbeta_spec",
    "Mpsci.dirichlet.isPdf",
    "Mpsci.dirichlet.isLog",
    "Mpsci.dirichlet.isMean",
    "Mpsci.dirichlet.isCov",
    "Mpsci.dirichlet.isEntropy",
    "Mpsci.dirichlet.pdf_two",
    "Mpsci.dirichlet.rejects_x",
    "Mpsci.dirichlet.boundary_nan"
   ],
   "note": "On the open simplex; at some boundary points the value is nan (dirichlet.boundary_nan)."
  },
  {
   "property": "C66",
   "status": "proved",
   "theorems": [
    "Mpsci.multivariate_t.isPdf",
    "Mpsci.multivariate_t.isLog",
    "Mpsci.multivariate_t.isEntropy",
    "Mpsci.multivariate_t.shift",
    "Mpsci.multivariate_t.symm_mode",
    "Mpsci.multivariate_t.pdf_one",
    "Mpsci.multivariate_t.singular"
   ],
   "note": "mp.det and mp.inverse are modelled as exact. Whether scale is positive definite is not checked by the code; the documentation asks the caller to ensure it."
  },
  {
   "property": "C67",
   "status": "proved",
   "theorems": [
    "Mpsci.gamma.nllInvhessDiag_spec",
    "Mpsci.gamma.nllInvhessDiag_singular",
    "Mpsci.gamma.mleSe_spec",
    "Mpsci.gamma.mleSe_pos",
    "Mpsci.gamma.mleCi_spec",
    "Mpsci.gamma.mleCi_rejects",
    "Mpsci.gamma.mleSe_invalid"
   ],
   "note": "mleCi_spec covers 0 < alpha < 2; for 1 < alpha the code returns the ends in reversed order, which the theorem states."
  },
  {
   "property": "C68",
   "status": "partial",
   "theorems": [
    "Mpsci.poisson.isSupport",
    "Mpsci.poisson.support_rejects",
    "Mpsci.negative_binomial.isSupport",
    "Mpsci.negative_binomial.support_accepts",
    "Mpsci.logseries.isSupport",
    "Mpsci.logseries.support_accepts",
    "Mpsci.gauss_kuzmin.isSupport"
   ],
   "note": "Proved for valid parameters of all four. negative_binomial.support and logseries.support do not validate: support_accepts proves that they accept parameters pmf rejects."
  },
  {
   "property": "C69",
   "status": "proved",
   "theorems": [
    "Mpsci.fun_.faddeevaw_spec",
    "Mpsci.fun_.isFaddeeva_unique",
    "Mpsci.fun_.faddeevaw_neg_conj",
    "Mpsci.fun_.faddeevaw_neg",
    "Mpsci.fun_.faddeevaw_re",
    "Mpsci.fun_.faddeevaw_imag"
   ],
   "note": "mp.erfc at complex arguments is modelled as the integral of exp(-u^2) along the segment from 0."
  },
  {
   "property": "C70",
   "status": "partial",
   "theorems": [
    "Mpsci.argus.isSupport",
    "Mpsci.benini.isSupport",
    "Mpsci.benktander1.isSupport",
    "Mpsci.benktander2.isSupport",
    "Mpsci.betaprime.isSupport",
    "Mpsci.burr12.isSupport",
    "Mpsci.cauchy.isSupport",
    "Mpsci.chi2.isSupport",
    "Mpsci.cosine.isSupport",
    "Mpsci.exponweib.isSupport",
    "Mpsci.gamma.isSupport",
    "Mpsci.gamma_gompertz.isSupport",
    "Mpsci.genextreme.isSupport",
    "Mpsci.genpareto.isSupport",
    "Mpsci.gompertz.isSupport",
    "Mpsci.gumbel_max.isSupport",
    "Mpsci.gumbel_min.isSupport",
    "Mpsci.hypsecant.isSupport",
    "Mpsci.laplace.isSupport",
    "Mpsci.logistic.isSupport",
    "Mpsci.normal.isSupport",
    "Mpsci.half_logistic.isSupport",
    "Mpsci.kumaraswamy.isSupport",
    "Mpsci.loggamma.isSupport",
    "Mpsci.loglogistic.isSupport",
    "Mpsci.lognormal.isSupport",
    "Mpsci.maxwell.isSupport",
    "Mpsci.nakagami.isSupport",
    "Mpsci.pareto.isSupport",
    "Mpsci.power_normal.isSupport",
    "Mpsci.rel_breitwigner.isSupport",
    "Mpsci.slash.isSupport",
    "Mpsci.uniform.isSupport",
    "Mpsci.weibull_min.isSupport",
    "Mpsci.weibull_max.isSupport",
    "Mpsci.truncnorm.isSupport",
    "Mpsci.levy.isSupport_partial",
    "Mpsci.tukeylambda.isSupport_partial",
    "Mpsci.genexpon.isSupport_partial",
    "Mpsci.beta.isSupport",
    "Mpsci.chi.isSupport",
    "Mpsci.fdist.isSupport",
    "Mpsci.folded_normal.isSupport",
    "Mpsci.genhyperbolic.isSupport",
    "Mpsci.geninvgauss.isSupport",
    "Mpsci.invchi2.isSupport",
    "Mpsci.invgamma.isSupport",
    "Mpsci.invgauss.isSupport",
    "Mpsci.ncx2.isSupport",
    "Mpsci.ncf.isSupport",
    "Mpsci.rice.isSupport",
    "Mpsci.studentt.isSupport",
    "Mpsci.nct.isSupport_partial"
   ],
   "note": "Proved for every module with a support function except genexpon (cdf raises left of loc, so the statement fails: genexpon.isSupport_partial), tukeylambda with lam < 0 (cdf fails in the tails), levy (support demands an extra probability argument) and nct (no cdf in the model; positivity of the density instead)."
  },
  {
   "property": "C71",
   "status": "partial",
   "theorems": [
    "Mpsci.beta.nllCens_spec",
    "Mpsci.beta.isGradient_cens",
    "Mpsci.beta.isHessian_cens",
    "Mpsci.beta.mleCens_spec_partial",
    "Mpsci.beta.mleCens_returns",
    "Mpsci.beta.nllCens_point"
   ],
   "note": "The likelihood, gradient and Hessian are proved. Missing: that the point found by findroot is a maximum (it is only stationary), and that the search finds one."
  },
  {
   "property": "C72",
   "status": "proved",
   "theorems": [
    "Mpsci.fisherExact.odds_frac",
    "Mpsci.fisherExact.odds_inf",
    "Mpsci.fisherExact.odds_nan",
    "Mpsci.fisherExact.odds_sample"
   ],
   "note": ""
  },
  {
   "property": "C73",
   "status": "proved",
   "theorems": [
    "Mpsci.stats.chisquare_pvalue",
    "Mpsci.stats.gtest_pvalue",
    "Mpsci.stats.chisquare_antitone",
    "Mpsci.stats.gof_pvalue_raises",
    "Mpsci.stats.gtest_complex",
    "Mpsci.stats.chisquare_lengths",
    "Mpsci.stats.anova_pvalue",
    "Mpsci.stats.anova_pvalue_affine",
    "Mpsci.stats.anova_pvalue_perm",
    "Mpsci.stats.anova_pvalue_errors"
   ],
   "note": "Two failures of the code are theorems: totals that agree only up to the tolerance can give gtest a negative statistic and a complex p-value (gtest_complex), and lists of different lengths are silently truncated while the degrees of freedom count the observed list (chisquare_lengths). A single cell (0 degrees of freedom) is outside the model."
  },
  {
   "property": "C74",
   "status": "partial",
   "theorems": [
    "Mpsci.fn.betaincinv_ends",
    "Mpsci.fn.betaincinv_by_bisection",
    "Mpsci.fn.betaincinv_bisect_inverse",
    "Mpsci.fn.betaincinv_bad_method",
    "Mpsci.fn.betaincinv_findroot_result",
    "Mpsci.fn.betaincinv_findroot_partial",
    "Mpsci.fn.exists_inverting_finder",
    "Mpsci.fn.betaincinv_beyond_one",
    "Mpsci.fn.betaincinv_nan_never_ends",
    "Mpsci.fn.f_inverse_nan_never_ends"
   ],
   "note": "Partial: that mp.findroot finds a root is not proved, and a root above 1 is not rejected by the code (betaincinv_beyond_one). Two failures are theorems: the root above 1, and y = nan, for which the bisection and with it f.invcdf and f.invsf never return."
  },
  {
   "property": "C75",
   "status": "partial",
   "theorems": [
    "Mpsci.cauchy_defaults",
    "Mpsci.exponweib_defaults",
    "Mpsci.genexpon_defaults",
    "Mpsci.genextreme_defaults",
    "Mpsci.genhyperbolic_defaults",
    "Mpsci.geninvgauss_defaults",
    "Mpsci.genpareto_defaults",
    "Mpsci.half_logistic_defaults",
    "Mpsci.hypsecant_defaults",
    "Mpsci.invgamma_defaults",
    "Mpsci.invgauss_defaults",
    "Mpsci.laplace_defaults",
    "Mpsci.levy_defaults",
    "Mpsci.logistic_defaults",
    "Mpsci.lognormal_defaults",
    "Mpsci.maxwell_defaults",
    "Mpsci.nakagami_defaults",
    "Mpsci.normal_defaults",
    "Mpsci.pareto_defaults",
    "Mpsci.power_normal_defaults",
    "Mpsci.tukeylambda_defaults",
    "Mpsci.uniform_defaults",
    "Mpsci.vonmises_defaults",
    "Mpsci.weibull_min_defaults",
    "Mpsci.weibull_max_defaults",
    "Mpsci.benini_defaults",
    "Mpsci.normal_nll_default"
   ],
   "note": "Partial because the claim fails for normal.nll, whose default is mu = 1 (normal_nll_default); it holds for all other functions."
  },
  {
   "property": "C76",
   "status": "partial",
   "theorems": [
    "Mpsci.NanArgs.laplace_nan",
    "Mpsci.NanArgs.logistic_nan",
    "Mpsci.NanArgs.cauchy_nan",
    "Mpsci.NanArgs.half_logistic_nan",
    "Mpsci.NanArgs.hypsecant_nan",
    "Mpsci.NanArgs.gumbel_max_nan",
    "Mpsci.NanArgs.gumbel_min_nan",
    "Mpsci.NanArgs.normal_nan",
    "Mpsci.NanArgs.lognormal_nan",
    "Mpsci.NanArgs.uniform_nan",
    "Mpsci.NanArgs.pareto_nan",
    "Mpsci.NanArgs.genpareto_nan",
    "Mpsci.NanArgs.genextreme_nan",
    "Mpsci.NanArgs.weibull_min_nan",
    "Mpsci.NanArgs.weibull_max_nan",
    "Mpsci.NanArgs.kumaraswamy_nan",
    "Mpsci.NanArgs.gompertz_nan",
    "Mpsci.NanArgs.gamma_gompertz_nan",
    "Mpsci.NanArgs.burr12_nan",
    "Mpsci.NanArgs.loglogistic_nan",
    "Mpsci.NanArgs.exponweib_nan",
    "Mpsci.NanArgs.genexpon_nan",
    "Mpsci.NanArgs.power_normal_nan",
    "Mpsci.NanArgs.benini_nan",
    "Mpsci.NanArgs.levy_nan",
    "Mpsci.NanArgs.maxwell_nan",
    "Mpsci.NanArgs.benktander2_nan",
    "Mpsci.NanArgs.folded_normal_nan",
    "Mpsci.NanArgs.slash_nan",
    "Mpsci.NanArgs.cosine_nan",
    "Mpsci.NanArgs.rel_breitwigner_nan",
    "Mpsci.NanArgs.beta_nan",
    "Mpsci.NanArgs.gamma_nan",
    "Mpsci.NanArgs.chi_nan",
    "Mpsci.NanArgs.chi2_nan",
    "Mpsci.NanArgs.invgamma_nan",
    "Mpsci.NanArgs.invchi2_nan",
    "Mpsci.NanArgs.betaprime_nan",
    "Mpsci.NanArgs.fdist_nan",
    "Mpsci.NanArgs.nakagami_nan",
    "Mpsci.NanArgs.studentt_nan",
    "Mpsci.NanArgs.loggamma_nan",
    "Mpsci.NanArgs.invgauss_nan",
    "Mpsci.NanArgs.vonmises_nan",
    "Mpsci.NanArgs.uniform_pdf_nan",
    "Mpsci.NanArgs.uniform_logpdf_nan"
   ],
   "note": "Partial: uniform.pdf and uniform.logpdf return the density of a point inside the support (uniform_pdf_nan, uniform_logpdf_nan); not covered are the functions that pass nan to gammainc, betainc, erfinv, lambertw or besseli, which the model leaves undefined at nan (and benini.logcdf/logsf, genextreme.logsf, truncnorm, argus, rice, benktander1)."
  },
  {
   "property": "C77",
   "status": "proved",
   "theorems": [
    "Mpsci.order.normal_nll",
    "Mpsci.order.lognormal_nll",
    "Mpsci.order.hypsecant_nll",
    "Mpsci.order.logistic_nll",
    "Mpsci.order.gumbel_max_nll",
    "Mpsci.order.gumbel_min_nll",
    "Mpsci.order.gamma_nll",
    "Mpsci.order.beta_nll",
    "Mpsci.order.pareto_nll",
    "Mpsci.order.gompertz_nll",
    "Mpsci.order.kumaraswamy_nll",
    "Mpsci.order.burr12_nll",
    "Mpsci.order.weibull_min_nll",
    "Mpsci.order.weibull_max_nll",
    "Mpsci.order.benini_nll",
    "Mpsci.order.genpareto_nll",
    "Mpsci.order.benktander1_nll",
    "Mpsci.order.benktander2_nll",
    "Mpsci.order.nakagami_nll",
    "Mpsci.order.betaprime_nll",
    "Mpsci.order.loggamma_nll",
    "Mpsci.order.laplace_mom",
    "Mpsci.order.uniform_mom",
    "Mpsci.order.logistic_mom",
    "Mpsci.order.gumbel_max_mom",
    "Mpsci.order.gumbel_min_mom",
    "Mpsci.order.gamma_mom",
    "Mpsci.order.beta_mom",
    "Mpsci.order.lognormal_mom",
    "Mpsci.order.normal_mle",
    "Mpsci.order.lognormal_mle",
    "Mpsci.order.laplace_mle",
    "Mpsci.order.uniform_mle",
    "Mpsci.order.logistic_mle",
    "Mpsci.order.gamma_mle",
    "Mpsci.order.beta_mle",
    "Mpsci.order.hypsecant_mle",
    "Mpsci.order.pareto_mle",
    "Mpsci.order.gompertz_mle",
    "Mpsci.order.kumaraswamy_mle",
    "Mpsci.order.nakagami_mle",
    "Mpsci.order.betaprime_mle",
    "Mpsci.order.loggamma_mle",
    "Mpsci.order.benktander1_mle",
    "Mpsci.order.gumbel_max_mle",
    "Mpsci.order.gumbel_min_mle",
    "Mpsci.order.gamma_nll_grad",
    "Mpsci.order.gamma_nll_hess",
    "Mpsci.order.gamma_nll_invhess",
    "Mpsci.order.nakagami_nll_grad",
    "Mpsci.order.poisson_nll",
    "Mpsci.order.poisson_mle",
    "Mpsci.order.binomial_nll",
    "Mpsci.order.betabinomial_nll",
    "Mpsci.order.logseries_nll",
    "Mpsci.order.logseries_mle",
    "Mpsci.order.negative_binomial_nll",
    "Mpsci.order.betabinomial_mle",
    "Mpsci.order.mean_order",
    "Mpsci.order.var_order",
    "Mpsci.order.std_order",
    "Mpsci.order.variation_order",
    "Mpsci.order.gmean_order",
    "Mpsci.order.hmean_order",
    "Mpsci.order.pmean_order",
    "Mpsci.order.lehmer_mean_order",
    "Mpsci.order.boxcox_llf_order",
    "Mpsci.order.yeojohnson_llf_order",
    "Mpsci.order.unique_counts_order",
    "Mpsci.order.chisquare_order",
    "Mpsci.order.gtest_order",
    "Mpsci.order.weighted_mean_order",
    "Mpsci.order.weighted_gmean_order",
    "Mpsci.order.pearsonr_order",
    "Mpsci.order.anova_within",
    "Mpsci.order.anova_groups",
    "Mpsci.order.weibull_min_mle",
    "Mpsci.order.weibull_max_mle",
    "Mpsci.order.burr12_mle"
   ],
   "note": "Two runs are compared: whenever one order gives a value, every other order gives the same value (so also: an error in one order is an error in every order). Arithmetic is exact; mp.fsum is a sum of real numbers. Not covered: poisson, binomial, negative_binomial, betabinomial and logseries with counts, binomial.mle and negative_binomial.mle, boxcox_mle and yeojohnson_mle (numerical derivative)."
  },
  {
   "property": "C79",
   "status": "proved",
   "theorems": [
    "Mpsci.affineNll.normal_nll",
    "Mpsci.affineNll.hypsecant_nll",
    "Mpsci.affineNll.logistic_nll",
    "Mpsci.affineNll.gumbel_max_nll",
    "Mpsci.affineNll.gumbel_min_nll",
    "Mpsci.affineNll.gamma_nll",
    "Mpsci.affineNll.pareto_nll",
    "Mpsci.affineNll.weibull_min_nll",
    "Mpsci.affineNll.weibull_max_nll",
    "Mpsci.affineNll.gompertz_nll",
    "Mpsci.affineNll.nakagami_nll",
    "Mpsci.affineNll.betaprime_nll",
    "Mpsci.affineNll.burr12_nll",
    "Mpsci.affineNll.benini_nll",
    "Mpsci.affineNll.loggamma_nll",
    "Mpsci.affineNll.lognormal_nll"
   ],
   "note": ""
  },
  {
   "property": "C78",
   "status": "proved",
   "theorems": [
    "Mpsci.affine.normal_mle_units",
    "Mpsci.affine.laplace_mom_units",
    "Mpsci.affine.logistic_mom_units",
    "Mpsci.affine.gumbel_max_mom_units",
    "Mpsci.affine.gumbel_min_mom_units",
    "Mpsci.affine.uniform_mom_units",
    "Mpsci.affine.uniform_mle_units",
    "Mpsci.affine.laplace_mle_units",
    "Mpsci.affine.laplace_mle_units_loc",
    "Mpsci.affine.laplace_mle_units_scale",
    "Mpsci.affine.lognormal_mle_units",
    "Mpsci.affine.lognormal_mom_units",
    "Mpsci.affine.gamma_mom_units",
    "Mpsci.affine.gamma_mle_units",
    "Mpsci.affine.gamma_mle_units_shape",
    "Mpsci.affine.gamma_mle_units_scale",
    "Mpsci.affine.pareto_mle_units_loc",
    "Mpsci.affine.pareto_mle_units_scale",
    "Mpsci.affine.pareto_mle_units_shape_loc",
    "Mpsci.affine.pareto_mle_units_shape_scale",
    "Mpsci.affine.pmean_homogeneous",
    "Mpsci.affine.gmean_homogeneous",
    "Mpsci.affine.hmean_homogeneous",
    "Mpsci.affine.lehmer_mean_homogeneous",
    "Mpsci.affine.weibull_min_mle_units",
    "Mpsci.affine.weibull_min_mle_units_shape",
    "Mpsci.affine.weibull_max_mle_units",
    "Mpsci.affine.weibull_max_mle_units_shape",
    "Mpsci.affine.weibull_min_mle_units_scale",
    "Mpsci.affine.weibull_max_mle_units_scale"
   ],
   "note": "Fits that solve location and scale together with mp.findroot are not covered (their result depends on the stopping rule of the root finder); gamma.mom and gamma.mle with both parameters free need data that are not all equal, where the code divides by zero."
  },
  {
   "property": "C80",
   "status": "proved",
   "theorems": [
    "Mpsci.mirror.normal_mle",
    "Mpsci.mirror.laplace_mom",
    "Mpsci.mirror.logistic_mom",
    "Mpsci.mirror.gumbel_mom",
    "Mpsci.mirror.uniform_mom",
    "Mpsci.mirror.uniform_mle",
    "Mpsci.mirror.laplace_mle",
    "Mpsci.mirror.laplace_mle_loc",
    "Mpsci.mirror.weibull_mle",
    "Mpsci.mirror.pearsonr_alternatives",
    "Mpsci.mirror.gumbel_mle",
    "Mpsci.mirror.normal_nll",
    "Mpsci.mirror.hypsecant_nll",
    "Mpsci.mirror.logistic_nll",
    "Mpsci.mirror.gumbel_nll",
    "Mpsci.mirror.weibull_nll",
    "Mpsci.mirror.beta_nll",
    "Mpsci.mirror.beta_mom",
    "Mpsci.mirror.beta_mle"
   ],
   "note": "Assumptions about the root finders: SignFree (gumbel mle with nothing fixed), SeesReals (gumbel mle with loc fixed), SwapFree (beta mle with nothing fixed). logistic.mle and hypsecant.mle, which solve location and scale together, are not covered."
  },
  {
   "property": "C81",
   "status": "proved",
   "theorems": [
    "Mpsci.copies.mean",
    "Mpsci.copies.var",
    "Mpsci.copies.std",
    "Mpsci.copies.pmean",
    "Mpsci.copies.gmean",
    "Mpsci.copies.hmean",
    "Mpsci.copies.lehmer_mean",
    "Mpsci.copies.normal_mle",
    "Mpsci.copies.laplace_mom",
    "Mpsci.copies.logistic_mom",
    "Mpsci.copies.gumbel_max_mom",
    "Mpsci.copies.gumbel_min_mom",
    "Mpsci.copies.uniform_mom",
    "Mpsci.copies.uniform_mle",
    "Mpsci.copies.lognormal_mle",
    "Mpsci.copies.lognormal_mom",
    "Mpsci.copies.gamma_mom",
    "Mpsci.copies.gamma_mle",
    "Mpsci.copies.gamma_mle_shape",
    "Mpsci.copies.gamma_mle_scale",
    "Mpsci.copies.pareto_mle_loc",
    "Mpsci.copies.pareto_mle_scale",
    "Mpsci.copies.weibull_min_mle",
    "Mpsci.copies.weibull_max_mle",
    "Mpsci.copies.laplace_mle",
    "Mpsci.copies.laplace_mle_loc",
    "Mpsci.copies.pearsonr",
    "Mpsci.copies.nll_normal",
    "Mpsci.copies.nll_location",
    "Mpsci.copies.nll_interval",
    "Mpsci.copies.nll_shape",
    "Mpsci.copies.nll_shapes",
    "Mpsci.copies.nll_genpareto"
   ],
   "note": "The fits that solve for two parameters with findroot are not covered, because their equations are sums and a root finder could see the factor k. lehmer_mean with p = 1/2 returns gmean, which is covered."
  }
 ]
}
