import Verif.Model.Dist.Cauchy
import Verif.Model.Dist.Exponweib
import Verif.Model.Dist.Genexpon
import Verif.Model.Dist.Genextreme
import Verif.Model.Dist.GenHyperbolic
import Verif.Model.Dist.GenInvGauss
import Verif.Model.Dist.Genpareto
import Verif.Model.Dist.HalfLogistic
import Verif.Model.Dist.Hypsecant
import Verif.Model.Dist.InvGamma
import Verif.Model.Dist.InvGauss
import Verif.Model.Dist.Laplace
import Verif.Model.Dist.Levy
import Verif.Model.Dist.Logistic
import Verif.Model.Dist.Lognormal
import Verif.Model.Dist.Maxwell
import Verif.Model.Dist.Nakagami
import Verif.Model.Dist.Normal
import Verif.Model.Dist.Pareto
import Verif.Model.Dist.PowerNormal
import Verif.Model.Dist.TukeyLambda
import Verif.Model.Dist.Uniform
import Verif.Model.Dist.Vonmises
import Verif.Model.Dist.Weibull
import Verif.Model.Dist.Benini
import Verif.Model.Fit.Positive
import Verif.Props.Dist.Normal

/-!
# C75: arguments that are omitted

The location and scale of a distribution (`loc`, `scale`; `mu`, `sigma`; the ends `a`, `b` of the uniform distribution) may
be omitted.  They are then 0 and 1, in every function, so that all functions called without them speak of one distribution.
-/

namespace Mpsci

open Classical Num Spec

/-- C75 `cauchy`: the omitted arguments are `loc = 0`, `scale = 1`, in
support, pdf, logpdf, cdf, invcdf, sf, invsf, mean, mode, var, entropy. -/
theorem cauchy_defaults :
    (cauchy.support = cauchy.support 0 1) ∧
    (∀ loc, cauchy.support loc = cauchy.support loc 1) ∧
    (∀ x, cauchy.pdf x = cauchy.pdf x 0 1) ∧
    (∀ x loc, cauchy.pdf x loc = cauchy.pdf x loc 1) ∧
    (∀ x, cauchy.logpdf x = cauchy.logpdf x 0 1) ∧
    (∀ x loc, cauchy.logpdf x loc = cauchy.logpdf x loc 1) ∧
    (∀ x, cauchy.cdf x = cauchy.cdf x 0 1) ∧
    (∀ x loc, cauchy.cdf x loc = cauchy.cdf x loc 1) ∧
    (∀ p, cauchy.invcdf p = cauchy.invcdf p 0 1) ∧
    (∀ p loc, cauchy.invcdf p loc = cauchy.invcdf p loc 1) ∧
    (∀ x, cauchy.sf x = cauchy.sf x 0 1) ∧
    (∀ x loc, cauchy.sf x loc = cauchy.sf x loc 1) ∧
    (∀ p, cauchy.invsf p = cauchy.invsf p 0 1) ∧
    (∀ p loc, cauchy.invsf p loc = cauchy.invsf p loc 1) ∧
    (cauchy.mean = cauchy.mean 0 1) ∧
    (∀ loc, cauchy.mean loc = cauchy.mean loc 1) ∧
    (cauchy.mode = cauchy.mode 0 1) ∧
    (∀ loc, cauchy.mode loc = cauchy.mode loc 1) ∧
    (cauchy.var = cauchy.var 0 1) ∧
    (∀ loc, cauchy.var loc = cauchy.var loc 1) ∧
    (cauchy.entropy = cauchy.entropy 0 1) ∧
    (∀ loc, cauchy.entropy loc = cauchy.entropy loc 1) := by
  and_intros <;> intros <;> rfl

/-- C75 `exponweib`: the omitted arguments are `scale = 1`, in
pdf, logpdf, cdf, invcdf, sf, invsf, support, noncentralMoment, mean, var. -/
theorem exponweib_defaults :
    (∀ x a c, exponweib.pdf x a c = exponweib.pdf x a c 1) ∧
    (∀ x a c, exponweib.logpdf x a c = exponweib.logpdf x a c 1) ∧
    (∀ x a c, exponweib.cdf x a c = exponweib.cdf x a c 1) ∧
    (∀ p a c, exponweib.invcdf p a c = exponweib.invcdf p a c 1) ∧
    (∀ x a c, exponweib.sf x a c = exponweib.sf x a c 1) ∧
    (∀ p a c, exponweib.invsf p a c = exponweib.invsf p a c 1) ∧
    (∀ a c, exponweib.support a c = exponweib.support a c 1) ∧
    (∀ k a c, exponweib.noncentralMoment k a c = exponweib.noncentralMoment k a c 1) ∧
    (∀ a c, exponweib.mean a c = exponweib.mean a c 1) ∧
    (∀ a c, exponweib.var a c = exponweib.var a c 1) := by
  and_intros <;> intros <;> rfl

/-- C75 `genexpon`: the omitted arguments are `loc = 0`, `scale = 1`, in
pdf, logpdf, cdf, sf, invcdf, invsf, support. -/
theorem genexpon_defaults :
    (∀ x a b c, genexpon.pdf x a b c = genexpon.pdf x a b c 0 1) ∧
    (∀ x a b c loc, genexpon.pdf x a b c loc = genexpon.pdf x a b c loc 1) ∧
    (∀ x a b c, genexpon.logpdf x a b c = genexpon.logpdf x a b c 0 1) ∧
    (∀ x a b c loc, genexpon.logpdf x a b c loc = genexpon.logpdf x a b c loc 1) ∧
    (∀ x a b c, genexpon.cdf x a b c = genexpon.cdf x a b c 0 1) ∧
    (∀ x a b c loc, genexpon.cdf x a b c loc = genexpon.cdf x a b c loc 1) ∧
    (∀ x a b c, genexpon.sf x a b c = genexpon.sf x a b c 0 1) ∧
    (∀ x a b c loc, genexpon.sf x a b c loc = genexpon.sf x a b c loc 1) ∧
    (∀ p a b c, genexpon.invcdf p a b c = genexpon.invcdf p a b c 0 1) ∧
    (∀ p a b c loc, genexpon.invcdf p a b c loc = genexpon.invcdf p a b c loc 1) ∧
    (∀ p a b c, genexpon.invsf p a b c = genexpon.invsf p a b c 0 1) ∧
    (∀ p a b c loc, genexpon.invsf p a b c loc = genexpon.invsf p a b c loc 1) ∧
    (∀ a b c, genexpon.support a b c = genexpon.support a b c 0 1) ∧
    (∀ a b c loc, genexpon.support a b c loc = genexpon.support a b c loc 1) := by
  and_intros <;> intros <;> rfl

/-- C75 `genextreme`: the omitted arguments are `mu = 0`, `sigma = 1`, in
pdf, logpdf, logcdf, cdf, invcdf, sf, logsf, invsf, support, mean, mode, var, skewness, kurtosis, entropy, noncentralMoment. -/
theorem genextreme_defaults :
    (∀ x xi, genextreme.pdf x xi = genextreme.pdf x xi 0 1) ∧
    (∀ x xi mu, genextreme.pdf x xi mu = genextreme.pdf x xi mu 1) ∧
    (∀ x xi, genextreme.logpdf x xi = genextreme.logpdf x xi 0 1) ∧
    (∀ x xi mu, genextreme.logpdf x xi mu = genextreme.logpdf x xi mu 1) ∧
    (∀ x xi, genextreme.logcdf x xi = genextreme.logcdf x xi 0 1) ∧
    (∀ x xi mu, genextreme.logcdf x xi mu = genextreme.logcdf x xi mu 1) ∧
    (∀ x xi, genextreme.cdf x xi = genextreme.cdf x xi 0 1) ∧
    (∀ x xi mu, genextreme.cdf x xi mu = genextreme.cdf x xi mu 1) ∧
    (∀ p xi, genextreme.invcdf p xi = genextreme.invcdf p xi 0 1) ∧
    (∀ p xi mu, genextreme.invcdf p xi mu = genextreme.invcdf p xi mu 1) ∧
    (∀ x xi, genextreme.sf x xi = genextreme.sf x xi 0 1) ∧
    (∀ x xi mu, genextreme.sf x xi mu = genextreme.sf x xi mu 1) ∧
    (∀ x xi, genextreme.logsf x xi = genextreme.logsf x xi 0 1) ∧
    (∀ x xi mu, genextreme.logsf x xi mu = genextreme.logsf x xi mu 1) ∧
    (∀ p xi, genextreme.invsf p xi = genextreme.invsf p xi 0 1) ∧
    (∀ p xi mu, genextreme.invsf p xi mu = genextreme.invsf p xi mu 1) ∧
    (∀ xi, genextreme.support xi = genextreme.support xi 0 1) ∧
    (∀ xi mu, genextreme.support xi mu = genextreme.support xi mu 1) ∧
    (∀ xi, genextreme.mean xi = genextreme.mean xi 0 1) ∧
    (∀ xi mu, genextreme.mean xi mu = genextreme.mean xi mu 1) ∧
    (∀ xi, genextreme.mode xi = genextreme.mode xi 0 1) ∧
    (∀ xi mu, genextreme.mode xi mu = genextreme.mode xi mu 1) ∧
    (∀ xi, genextreme.var xi = genextreme.var xi 0 1) ∧
    (∀ xi mu, genextreme.var xi mu = genextreme.var xi mu 1) ∧
    (∀ xi, genextreme.skewness xi = genextreme.skewness xi 0 1) ∧
    (∀ xi mu, genextreme.skewness xi mu = genextreme.skewness xi mu 1) ∧
    (∀ xi, genextreme.kurtosis xi = genextreme.kurtosis xi 0 1) ∧
    (∀ xi mu, genextreme.kurtosis xi mu = genextreme.kurtosis xi mu 1) ∧
    (∀ xi, genextreme.entropy xi = genextreme.entropy xi 0 1) ∧
    (∀ xi mu, genextreme.entropy xi mu = genextreme.entropy xi mu 1) ∧
    (∀ n xi, genextreme.noncentralMoment n xi = genextreme.noncentralMoment n xi 0 1) ∧
    (∀ n xi mu, genextreme.noncentralMoment n xi mu = genextreme.noncentralMoment n xi mu 1) := by
  and_intros <;> intros <;> rfl

/-- C75 `genhyperbolic`: the omitted arguments are `loc = 0`, `scale = 1`, in
logpdf, pdf, mean, cdf, sf, support, var. -/
theorem genhyperbolic_defaults :
    (∀ x p a b, genhyperbolic.logpdf x p a b = genhyperbolic.logpdf x p a b 0 1) ∧
    (∀ x p a b loc, genhyperbolic.logpdf x p a b loc = genhyperbolic.logpdf x p a b loc 1) ∧
    (∀ x p a b, genhyperbolic.pdf x p a b = genhyperbolic.pdf x p a b 0 1) ∧
    (∀ x p a b loc, genhyperbolic.pdf x p a b loc = genhyperbolic.pdf x p a b loc 1) ∧
    (∀ p a b, genhyperbolic.mean p a b = genhyperbolic.mean p a b 0 1) ∧
    (∀ p a b loc, genhyperbolic.mean p a b loc = genhyperbolic.mean p a b loc 1) ∧
    (∀ x p a b, genhyperbolic.cdf x p a b = genhyperbolic.cdf x p a b 0 1) ∧
    (∀ x p a b loc, genhyperbolic.cdf x p a b loc = genhyperbolic.cdf x p a b loc 1) ∧
    (∀ x p a b, genhyperbolic.sf x p a b = genhyperbolic.sf x p a b 0 1) ∧
    (∀ x p a b loc, genhyperbolic.sf x p a b loc = genhyperbolic.sf x p a b loc 1) ∧
    (∀ p a b, genhyperbolic.support p a b = genhyperbolic.support p a b 0 1) ∧
    (∀ p a b loc, genhyperbolic.support p a b loc = genhyperbolic.support p a b loc 1) ∧
    (∀ p a b, genhyperbolic.var p a b = genhyperbolic.var p a b 0 1) ∧
    (∀ p a b loc, genhyperbolic.var p a b loc = genhyperbolic.var p a b loc 1) := by
  and_intros <;> intros <;> rfl

/-- C75 `geninvgauss`: the omitted arguments are `loc = 0`, `scale = 1`, in
pdf, logpdf, mode, cdf, sf, support, mean, var, entropy. -/
theorem geninvgauss_defaults :
    (∀ x p b, geninvgauss.pdf x p b = geninvgauss.pdf x p b 0 1) ∧
    (∀ x p b loc, geninvgauss.pdf x p b loc = geninvgauss.pdf x p b loc 1) ∧
    (∀ x p b, geninvgauss.logpdf x p b = geninvgauss.logpdf x p b 0 1) ∧
    (∀ x p b loc, geninvgauss.logpdf x p b loc = geninvgauss.logpdf x p b loc 1) ∧
    (∀ p b, geninvgauss.mode p b = geninvgauss.mode p b 0 1) ∧
    (∀ p b loc, geninvgauss.mode p b loc = geninvgauss.mode p b loc 1) ∧
    (∀ x p b, geninvgauss.cdf x p b = geninvgauss.cdf x p b 0 1) ∧
    (∀ x p b loc, geninvgauss.cdf x p b loc = geninvgauss.cdf x p b loc 1) ∧
    (∀ x p b, geninvgauss.sf x p b = geninvgauss.sf x p b 0 1) ∧
    (∀ x p b loc, geninvgauss.sf x p b loc = geninvgauss.sf x p b loc 1) ∧
    (∀ p b, geninvgauss.support p b = geninvgauss.support p b 0 1) ∧
    (∀ p b loc, geninvgauss.support p b loc = geninvgauss.support p b loc 1) ∧
    (∀ p b, geninvgauss.mean p b = geninvgauss.mean p b 0 1) ∧
    (∀ p b loc, geninvgauss.mean p b loc = geninvgauss.mean p b loc 1) ∧
    (∀ p b, geninvgauss.var p b = geninvgauss.var p b 0 1) ∧
    (∀ p b loc, geninvgauss.var p b loc = geninvgauss.var p b loc 1) ∧
    (∀ p b, geninvgauss.entropy p b = geninvgauss.entropy p b 0 1) ∧
    (∀ p b loc, geninvgauss.entropy p b loc = geninvgauss.entropy p b loc 1) := by
  and_intros <;> intros <;> rfl

/-- C75 `genpareto`: the omitted arguments are `mu = 0`, `sigma = 1`, in
pdf, logpdf, cdf, invcdf, sf, invsf, support, mean, var, entropy, nll. -/
theorem genpareto_defaults :
    (∀ x xi, genpareto.pdf x xi = genpareto.pdf x xi 0 1) ∧
    (∀ x xi mu, genpareto.pdf x xi mu = genpareto.pdf x xi mu 1) ∧
    (∀ x xi, genpareto.logpdf x xi = genpareto.logpdf x xi 0 1) ∧
    (∀ x xi mu, genpareto.logpdf x xi mu = genpareto.logpdf x xi mu 1) ∧
    (∀ x xi, genpareto.cdf x xi = genpareto.cdf x xi 0 1) ∧
    (∀ x xi mu, genpareto.cdf x xi mu = genpareto.cdf x xi mu 1) ∧
    (∀ p xi, genpareto.invcdf p xi = genpareto.invcdf p xi 0 1) ∧
    (∀ p xi mu, genpareto.invcdf p xi mu = genpareto.invcdf p xi mu 1) ∧
    (∀ x xi, genpareto.sf x xi = genpareto.sf x xi 0 1) ∧
    (∀ x xi mu, genpareto.sf x xi mu = genpareto.sf x xi mu 1) ∧
    (∀ p xi, genpareto.invsf p xi = genpareto.invsf p xi 0 1) ∧
    (∀ p xi mu, genpareto.invsf p xi mu = genpareto.invsf p xi mu 1) ∧
    (∀ xi, genpareto.support xi = genpareto.support xi 0 1) ∧
    (∀ xi mu, genpareto.support xi mu = genpareto.support xi mu 1) ∧
    (∀ xi, genpareto.mean xi = genpareto.mean xi 0 1) ∧
    (∀ xi mu, genpareto.mean xi mu = genpareto.mean xi mu 1) ∧
    (∀ xi, genpareto.var xi = genpareto.var xi 0 1) ∧
    (∀ xi mu, genpareto.var xi mu = genpareto.var xi mu 1) ∧
    (∀ xi, genpareto.entropy xi = genpareto.entropy xi 0 1) ∧
    (∀ xi mu, genpareto.entropy xi mu = genpareto.entropy xi mu 1) ∧
    (∀ x xi, genpareto.nll x xi = genpareto.nll x xi 0 1) ∧
    (∀ x xi mu, genpareto.nll x xi mu = genpareto.nll x xi mu 1) := by
  and_intros <;> intros <;> rfl

/-- C75 `half_logistic`: the omitted arguments are `loc = 0`, `scale = 1`, in
pdf, logpdf, cdf, invcdf, sf, invsf, mean, mode, var, entropy, support. -/
theorem half_logistic_defaults :
    (∀ x, half_logistic.pdf x = half_logistic.pdf x 0 1) ∧
    (∀ x loc, half_logistic.pdf x loc = half_logistic.pdf x loc 1) ∧
    (∀ x, half_logistic.logpdf x = half_logistic.logpdf x 0 1) ∧
    (∀ x loc, half_logistic.logpdf x loc = half_logistic.logpdf x loc 1) ∧
    (∀ x, half_logistic.cdf x = half_logistic.cdf x 0 1) ∧
    (∀ x loc, half_logistic.cdf x loc = half_logistic.cdf x loc 1) ∧
    (∀ p, half_logistic.invcdf p = half_logistic.invcdf p 0 1) ∧
    (∀ p loc, half_logistic.invcdf p loc = half_logistic.invcdf p loc 1) ∧
    (∀ x, half_logistic.sf x = half_logistic.sf x 0 1) ∧
    (∀ x loc, half_logistic.sf x loc = half_logistic.sf x loc 1) ∧
    (∀ p, half_logistic.invsf p = half_logistic.invsf p 0 1) ∧
    (∀ p loc, half_logistic.invsf p loc = half_logistic.invsf p loc 1) ∧
    (half_logistic.mean = half_logistic.mean 0 1) ∧
    (∀ loc, half_logistic.mean loc = half_logistic.mean loc 1) ∧
    (half_logistic.mode = half_logistic.mode 0 1) ∧
    (∀ loc, half_logistic.mode loc = half_logistic.mode loc 1) ∧
    (half_logistic.var = half_logistic.var 0 1) ∧
    (∀ loc, half_logistic.var loc = half_logistic.var loc 1) ∧
    (half_logistic.entropy = half_logistic.entropy 0 1) ∧
    (∀ loc, half_logistic.entropy loc = half_logistic.entropy loc 1) ∧
    (half_logistic.support = half_logistic.support 0 1) ∧
    (∀ loc, half_logistic.support loc = half_logistic.support loc 1) := by
  and_intros <;> intros <;> rfl

/-- C75 `hypsecant`: the omitted arguments are `loc = 0`, `scale = 1`, in
pdf, logpdf, cdf, sf, invcdf, invsf, support, mean, mode, var, entropy. -/
theorem hypsecant_defaults :
    (∀ x, hypsecant.pdf x = hypsecant.pdf x 0 1) ∧
    (∀ x loc, hypsecant.pdf x loc = hypsecant.pdf x loc 1) ∧
    (∀ x, hypsecant.logpdf x = hypsecant.logpdf x 0 1) ∧
    (∀ x loc, hypsecant.logpdf x loc = hypsecant.logpdf x loc 1) ∧
    (∀ x, hypsecant.cdf x = hypsecant.cdf x 0 1) ∧
    (∀ x loc, hypsecant.cdf x loc = hypsecant.cdf x loc 1) ∧
    (∀ x, hypsecant.sf x = hypsecant.sf x 0 1) ∧
    (∀ x loc, hypsecant.sf x loc = hypsecant.sf x loc 1) ∧
    (∀ p, hypsecant.invcdf p = hypsecant.invcdf p 0 1) ∧
    (∀ p loc, hypsecant.invcdf p loc = hypsecant.invcdf p loc 1) ∧
    (∀ p, hypsecant.invsf p = hypsecant.invsf p 0 1) ∧
    (∀ p loc, hypsecant.invsf p loc = hypsecant.invsf p loc 1) ∧
    (hypsecant.support = hypsecant.support 0 1) ∧
    (∀ loc, hypsecant.support loc = hypsecant.support loc 1) ∧
    (hypsecant.mean = hypsecant.mean 0 1) ∧
    (∀ loc, hypsecant.mean loc = hypsecant.mean loc 1) ∧
    (hypsecant.mode = hypsecant.mode 0 1) ∧
    (∀ loc, hypsecant.mode loc = hypsecant.mode loc 1) ∧
    (hypsecant.var = hypsecant.var 0 1) ∧
    (∀ loc, hypsecant.var loc = hypsecant.var loc 1) ∧
    (hypsecant.entropy = hypsecant.entropy 0 1) ∧
    (∀ loc, hypsecant.entropy loc = hypsecant.entropy loc 1) := by
  and_intros <;> intros <;> rfl

/-- C75 `invgamma`: the omitted arguments are `loc = 0`, `scale = 1`, in
logpdf, pdf, cdf, sf, mode, invcdf, invsf, support, mean, var, skewness, kurtosis, entropy, noncentralMoment. -/
theorem invgamma_defaults :
    (∀ x a, invgamma.logpdf x a = invgamma.logpdf x a 0 1) ∧
    (∀ x a loc, invgamma.logpdf x a loc = invgamma.logpdf x a loc 1) ∧
    (∀ x a, invgamma.pdf x a = invgamma.pdf x a 0 1) ∧
    (∀ x a loc, invgamma.pdf x a loc = invgamma.pdf x a loc 1) ∧
    (∀ x a, invgamma.cdf x a = invgamma.cdf x a 0 1) ∧
    (∀ x a loc, invgamma.cdf x a loc = invgamma.cdf x a loc 1) ∧
    (∀ x a, invgamma.sf x a = invgamma.sf x a 0 1) ∧
    (∀ x a loc, invgamma.sf x a loc = invgamma.sf x a loc 1) ∧
    (∀ a, invgamma.mode a = invgamma.mode a 0 1) ∧
    (∀ a loc, invgamma.mode a loc = invgamma.mode a loc 1) ∧
    (∀ eps fuel p a, invgamma.invcdf eps fuel p a = invgamma.invcdf eps fuel p a 0 1) ∧
    (∀ eps fuel p a loc, invgamma.invcdf eps fuel p a loc = invgamma.invcdf eps fuel p a loc 1) ∧
    (∀ eps fuel p a, invgamma.invsf eps fuel p a = invgamma.invsf eps fuel p a 0 1) ∧
    (∀ eps fuel p a loc, invgamma.invsf eps fuel p a loc = invgamma.invsf eps fuel p a loc 1) ∧
    (∀ a, invgamma.support a = invgamma.support a 0 1) ∧
    (∀ a loc, invgamma.support a loc = invgamma.support a loc 1) ∧
    (∀ a, invgamma.mean a = invgamma.mean a 0 1) ∧
    (∀ a loc, invgamma.mean a loc = invgamma.mean a loc 1) ∧
    (∀ a, invgamma.var a = invgamma.var a 0 1) ∧
    (∀ a loc, invgamma.var a loc = invgamma.var a loc 1) ∧
    (∀ a, invgamma.skewness a = invgamma.skewness a 0 1) ∧
    (∀ a loc, invgamma.skewness a loc = invgamma.skewness a loc 1) ∧
    (∀ a, invgamma.kurtosis a = invgamma.kurtosis a 0 1) ∧
    (∀ a loc, invgamma.kurtosis a loc = invgamma.kurtosis a loc 1) ∧
    (∀ a, invgamma.entropy a = invgamma.entropy a 0 1) ∧
    (∀ a loc, invgamma.entropy a loc = invgamma.entropy a loc 1) ∧
    (∀ n a, invgamma.noncentralMoment n a = invgamma.noncentralMoment n a 0 1) ∧
    (∀ n a loc, invgamma.noncentralMoment n a loc = invgamma.noncentralMoment n a loc 1) := by
  and_intros <;> intros <;> rfl

/-- C75 `invgauss`: the omitted arguments are `loc = 0`, `scale = 1`, in
pdf, logpdf, cdf, logcdf, sf, logsf, mode, invcdf, invsf, support, mean, median, var, entropy, noncentralMoment. -/
theorem invgauss_defaults :
    (∀ x m, invgauss.pdf x m = invgauss.pdf x m 0 1) ∧
    (∀ x m loc, invgauss.pdf x m loc = invgauss.pdf x m loc 1) ∧
    (∀ x m, invgauss.logpdf x m = invgauss.logpdf x m 0 1) ∧
    (∀ x m loc, invgauss.logpdf x m loc = invgauss.logpdf x m loc 1) ∧
    (∀ x m, invgauss.cdf x m = invgauss.cdf x m 0 1) ∧
    (∀ x m loc, invgauss.cdf x m loc = invgauss.cdf x m loc 1) ∧
    (∀ x m, invgauss.logcdf x m = invgauss.logcdf x m 0 1) ∧
    (∀ x m loc, invgauss.logcdf x m loc = invgauss.logcdf x m loc 1) ∧
    (∀ x m, invgauss.sf x m = invgauss.sf x m 0 1) ∧
    (∀ x m loc, invgauss.sf x m loc = invgauss.sf x m loc 1) ∧
    (∀ x m, invgauss.logsf x m = invgauss.logsf x m 0 1) ∧
    (∀ x m loc, invgauss.logsf x m loc = invgauss.logsf x m loc 1) ∧
    (∀ m, invgauss.mode m = invgauss.mode m 0 1) ∧
    (∀ m loc, invgauss.mode m loc = invgauss.mode m loc 1) ∧
    (∀ eps fuel p m, invgauss.invcdf eps fuel p m = invgauss.invcdf eps fuel p m 0 1) ∧
    (∀ eps fuel p m loc, invgauss.invcdf eps fuel p m loc = invgauss.invcdf eps fuel p m loc 1) ∧
    (∀ eps fuel p m, invgauss.invsf eps fuel p m = invgauss.invsf eps fuel p m 0 1) ∧
    (∀ eps fuel p m loc, invgauss.invsf eps fuel p m loc = invgauss.invsf eps fuel p m loc 1) ∧
    (∀ m, invgauss.support m = invgauss.support m 0 1) ∧
    (∀ m loc, invgauss.support m loc = invgauss.support m loc 1) ∧
    (∀ m, invgauss.mean m = invgauss.mean m 0 1) ∧
    (∀ m loc, invgauss.mean m loc = invgauss.mean m loc 1) ∧
    (∀ eps fuel m, invgauss.median eps fuel m = invgauss.median eps fuel m 0 1) ∧
    (∀ eps fuel m loc, invgauss.median eps fuel m loc = invgauss.median eps fuel m loc 1) ∧
    (∀ m, invgauss.var m = invgauss.var m 0 1) ∧
    (∀ m loc, invgauss.var m loc = invgauss.var m loc 1) ∧
    (∀ m, invgauss.entropy m = invgauss.entropy m 0 1) ∧
    (∀ m loc, invgauss.entropy m loc = invgauss.entropy m loc 1) ∧
    (∀ n m, invgauss.noncentralMoment n m = invgauss.noncentralMoment n m 0 1) ∧
    (∀ n m loc, invgauss.noncentralMoment n m loc = invgauss.noncentralMoment n m loc 1) := by
  and_intros <;> intros <;> rfl

/-- C75 `laplace`: the omitted arguments are `loc = 0`, `scale = 1`, in
pdf, logpdf, cdf, sf, intervalProb, invcdf, invsf, support, mean, mode, var. -/
theorem laplace_defaults :
    (∀ x, laplace.pdf x = laplace.pdf x 0 1) ∧
    (∀ x loc, laplace.pdf x loc = laplace.pdf x loc 1) ∧
    (∀ x, laplace.logpdf x = laplace.logpdf x 0 1) ∧
    (∀ x loc, laplace.logpdf x loc = laplace.logpdf x loc 1) ∧
    (∀ x, laplace.cdf x = laplace.cdf x 0 1) ∧
    (∀ x loc, laplace.cdf x loc = laplace.cdf x loc 1) ∧
    (∀ x, laplace.sf x = laplace.sf x 0 1) ∧
    (∀ x loc, laplace.sf x loc = laplace.sf x loc 1) ∧
    (∀ x1 x2, laplace.intervalProb x1 x2 = laplace.intervalProb x1 x2 0 1) ∧
    (∀ x1 x2 loc, laplace.intervalProb x1 x2 loc = laplace.intervalProb x1 x2 loc 1) ∧
    (∀ p, laplace.invcdf p = laplace.invcdf p 0 1) ∧
    (∀ p loc, laplace.invcdf p loc = laplace.invcdf p loc 1) ∧
    (∀ p, laplace.invsf p = laplace.invsf p 0 1) ∧
    (∀ p loc, laplace.invsf p loc = laplace.invsf p loc 1) ∧
    (laplace.support = laplace.support 0 1) ∧
    (∀ loc, laplace.support loc = laplace.support loc 1) ∧
    (laplace.mean = laplace.mean 0 1) ∧
    (∀ loc, laplace.mean loc = laplace.mean loc 1) ∧
    (laplace.mode = laplace.mode 0 1) ∧
    (∀ loc, laplace.mode loc = laplace.mode loc 1) ∧
    (laplace.var = laplace.var 0 1) ∧
    (∀ loc, laplace.var loc = laplace.var loc 1) := by
  and_intros <;> intros <;> rfl

/-- C75 `levy`: the omitted arguments are `mu = 0`, `sigma = 1`, in
logpdf, pdf, cdf, invcdf, sf, invsf, support. -/
theorem levy_defaults :
    (∀ x, levy.logpdf x = levy.logpdf x 0 1) ∧
    (∀ x mu, levy.logpdf x mu = levy.logpdf x mu 1) ∧
    (∀ x, levy.pdf x = levy.pdf x 0 1) ∧
    (∀ x mu, levy.pdf x mu = levy.pdf x mu 1) ∧
    (∀ x, levy.cdf x = levy.cdf x 0 1) ∧
    (∀ x mu, levy.cdf x mu = levy.cdf x mu 1) ∧
    (∀ p, levy.invcdf p = levy.invcdf p 0 1) ∧
    (∀ p mu, levy.invcdf p mu = levy.invcdf p mu 1) ∧
    (∀ x, levy.sf x = levy.sf x 0 1) ∧
    (∀ x mu, levy.sf x mu = levy.sf x mu 1) ∧
    (∀ p, levy.invsf p = levy.invsf p 0 1) ∧
    (∀ p mu, levy.invsf p mu = levy.invsf p mu 1) ∧
    (∀ p, levy.support p = levy.support p 0 1) ∧
    (∀ p mu, levy.support p mu = levy.support p mu 1) := by
  and_intros <;> intros <;> rfl

/-- C75 `logistic`: the omitted arguments are `loc = 0`, `scale = 1`, in
pdf, logpdf, cdf, sf, invcdf, invsf, support, mean, mode, var, entropy. -/
theorem logistic_defaults :
    (∀ x, logistic.pdf x = logistic.pdf x 0 1) ∧
    (∀ x loc, logistic.pdf x loc = logistic.pdf x loc 1) ∧
    (∀ x, logistic.logpdf x = logistic.logpdf x 0 1) ∧
    (∀ x loc, logistic.logpdf x loc = logistic.logpdf x loc 1) ∧
    (∀ x, logistic.cdf x = logistic.cdf x 0 1) ∧
    (∀ x loc, logistic.cdf x loc = logistic.cdf x loc 1) ∧
    (∀ x, logistic.sf x = logistic.sf x 0 1) ∧
    (∀ x loc, logistic.sf x loc = logistic.sf x loc 1) ∧
    (∀ p, logistic.invcdf p = logistic.invcdf p 0 1) ∧
    (∀ p loc, logistic.invcdf p loc = logistic.invcdf p loc 1) ∧
    (∀ p, logistic.invsf p = logistic.invsf p 0 1) ∧
    (∀ p loc, logistic.invsf p loc = logistic.invsf p loc 1) ∧
    (logistic.support = logistic.support 0 1) ∧
    (∀ loc, logistic.support loc = logistic.support loc 1) ∧
    (logistic.mean = logistic.mean 0 1) ∧
    (∀ loc, logistic.mean loc = logistic.mean loc 1) ∧
    (logistic.mode = logistic.mode 0 1) ∧
    (∀ loc, logistic.mode loc = logistic.mode loc 1) ∧
    (logistic.var = logistic.var 0 1) ∧
    (∀ loc, logistic.var loc = logistic.var loc 1) ∧
    (logistic.entropy = logistic.entropy 0 1) ∧
    (∀ loc, logistic.entropy loc = logistic.entropy loc 1) := by
  and_intros <;> intros <;> rfl

/-- C75 `lognormal`: the omitted arguments are `mu = 0`, `sigma = 1`, in
pdf, logpdf, cdf, sf, invcdf, invsf, support, mean, mode, var, skewness, kurtosis, entropy, noncentralMoment. -/
theorem lognormal_defaults :
    (∀ x, lognormal.pdf x = lognormal.pdf x 0 1) ∧
    (∀ x mu, lognormal.pdf x mu = lognormal.pdf x mu 1) ∧
    (∀ x, lognormal.logpdf x = lognormal.logpdf x 0 1) ∧
    (∀ x mu, lognormal.logpdf x mu = lognormal.logpdf x mu 1) ∧
    (∀ x, lognormal.cdf x = lognormal.cdf x 0 1) ∧
    (∀ x mu, lognormal.cdf x mu = lognormal.cdf x mu 1) ∧
    (∀ x, lognormal.sf x = lognormal.sf x 0 1) ∧
    (∀ x mu, lognormal.sf x mu = lognormal.sf x mu 1) ∧
    (∀ p, lognormal.invcdf p = lognormal.invcdf p 0 1) ∧
    (∀ p mu, lognormal.invcdf p mu = lognormal.invcdf p mu 1) ∧
    (∀ p, lognormal.invsf p = lognormal.invsf p 0 1) ∧
    (∀ p mu, lognormal.invsf p mu = lognormal.invsf p mu 1) ∧
    (lognormal.support = lognormal.support 0 1) ∧
    (∀ mu, lognormal.support mu = lognormal.support mu 1) ∧
    (lognormal.mean = lognormal.mean 0 1) ∧
    (∀ mu, lognormal.mean mu = lognormal.mean mu 1) ∧
    (lognormal.mode = lognormal.mode 0 1) ∧
    (∀ mu, lognormal.mode mu = lognormal.mode mu 1) ∧
    (lognormal.var = lognormal.var 0 1) ∧
    (∀ mu, lognormal.var mu = lognormal.var mu 1) ∧
    (lognormal.skewness = lognormal.skewness 0 1) ∧
    (∀ mu, lognormal.skewness mu = lognormal.skewness mu 1) ∧
    (lognormal.kurtosis = lognormal.kurtosis 0 1) ∧
    (∀ mu, lognormal.kurtosis mu = lognormal.kurtosis mu 1) ∧
    (lognormal.entropy = lognormal.entropy 0 1) ∧
    (∀ mu, lognormal.entropy mu = lognormal.entropy mu 1) ∧
    (∀ n, lognormal.noncentralMoment n = lognormal.noncentralMoment n 0 1) ∧
    (∀ n mu, lognormal.noncentralMoment n mu = lognormal.noncentralMoment n mu 1) := by
  and_intros <;> intros <;> rfl

/-- C75 `maxwell`: the omitted arguments are `loc = 0`, `scale = 1`, in
pdf, logpdf, cdf, sf, invcdf, invsf, support, mean, mode, var, entropy. -/
theorem maxwell_defaults :
    (∀ x, maxwell.pdf x = maxwell.pdf x 0 1) ∧
    (∀ x loc, maxwell.pdf x loc = maxwell.pdf x loc 1) ∧
    (∀ x, maxwell.logpdf x = maxwell.logpdf x 0 1) ∧
    (∀ x loc, maxwell.logpdf x loc = maxwell.logpdf x loc 1) ∧
    (∀ x, maxwell.cdf x = maxwell.cdf x 0 1) ∧
    (∀ x loc, maxwell.cdf x loc = maxwell.cdf x loc 1) ∧
    (∀ x, maxwell.sf x = maxwell.sf x 0 1) ∧
    (∀ x loc, maxwell.sf x loc = maxwell.sf x loc 1) ∧
    (∀ findroot newton fuel p, maxwell.invcdf findroot newton fuel p = maxwell.invcdf findroot newton fuel p 0 1) ∧
    (∀ findroot newton fuel p loc, maxwell.invcdf findroot newton fuel p loc = maxwell.invcdf findroot newton fuel p loc 1) ∧
    (∀ findroot newton fuel p, maxwell.invsf findroot newton fuel p = maxwell.invsf findroot newton fuel p 0 1) ∧
    (∀ findroot newton fuel p loc, maxwell.invsf findroot newton fuel p loc = maxwell.invsf findroot newton fuel p loc 1) ∧
    (maxwell.support = maxwell.support 0 1) ∧
    (∀ loc, maxwell.support loc = maxwell.support loc 1) ∧
    (maxwell.mean = maxwell.mean 0 1) ∧
    (∀ loc, maxwell.mean loc = maxwell.mean loc 1) ∧
    (maxwell.mode = maxwell.mode 0 1) ∧
    (∀ loc, maxwell.mode loc = maxwell.mode loc 1) ∧
    (maxwell.var = maxwell.var 0 1) ∧
    (∀ loc, maxwell.var loc = maxwell.var loc 1) ∧
    (maxwell.entropy = maxwell.entropy 0 1) ∧
    (∀ loc, maxwell.entropy loc = maxwell.entropy loc 1) := by
  and_intros <;> intros <;> rfl

/-- C75 `nakagami`: the omitted arguments are `loc = 0`, `scale = 1`, in
pdf, logpdf, cdf, invcdf, sf, invsf, support, mean, mode, var, entropy. -/
theorem nakagami_defaults :
    (∀ x nu, nakagami.pdf x nu = nakagami.pdf x nu 0 1) ∧
    (∀ x nu loc, nakagami.pdf x nu loc = nakagami.pdf x nu loc 1) ∧
    (∀ x nu, nakagami.logpdf x nu = nakagami.logpdf x nu 0 1) ∧
    (∀ x nu loc, nakagami.logpdf x nu loc = nakagami.logpdf x nu loc 1) ∧
    (∀ x nu, nakagami.cdf x nu = nakagami.cdf x nu 0 1) ∧
    (∀ x nu loc, nakagami.cdf x nu loc = nakagami.cdf x nu loc 1) ∧
    (∀ findroot fuel p nu, nakagami.invcdf findroot fuel p nu = nakagami.invcdf findroot fuel p nu 0 1) ∧
    (∀ findroot fuel p nu loc, nakagami.invcdf findroot fuel p nu loc = nakagami.invcdf findroot fuel p nu loc 1) ∧
    (∀ x nu, nakagami.sf x nu = nakagami.sf x nu 0 1) ∧
    (∀ x nu loc, nakagami.sf x nu loc = nakagami.sf x nu loc 1) ∧
    (∀ findroot fuel p nu, nakagami.invsf findroot fuel p nu = nakagami.invsf findroot fuel p nu 0 1) ∧
    (∀ findroot fuel p nu loc, nakagami.invsf findroot fuel p nu loc = nakagami.invsf findroot fuel p nu loc 1) ∧
    (∀ nu, nakagami.support nu = nakagami.support nu 0 1) ∧
    (∀ nu loc, nakagami.support nu loc = nakagami.support nu loc 1) ∧
    (∀ nu, nakagami.mean nu = nakagami.mean nu 0 1) ∧
    (∀ nu loc, nakagami.mean nu loc = nakagami.mean nu loc 1) ∧
    (∀ nu, nakagami.mode nu = nakagami.mode nu 0 1) ∧
    (∀ nu loc, nakagami.mode nu loc = nakagami.mode nu loc 1) ∧
    (∀ nu, nakagami.var nu = nakagami.var nu 0 1) ∧
    (∀ nu loc, nakagami.var nu loc = nakagami.var nu loc 1) ∧
    (∀ nu, nakagami.entropy nu = nakagami.entropy nu 0 1) ∧
    (∀ nu loc, nakagami.entropy nu loc = nakagami.entropy nu loc 1) := by
  and_intros <;> intros <;> rfl

/-- C75 `normal`: the omitted arguments are `mu = 0`, `sigma = 1`, in
pdf, logpdf, cdf, sf, invcdf, invsf, support, mean, median, mode, entropy. -/
theorem normal_defaults :
    (∀ x, normal.pdf x = normal.pdf x 0 1) ∧
    (∀ x mu, normal.pdf x mu = normal.pdf x mu 1) ∧
    (∀ x, normal.logpdf x = normal.logpdf x 0 1) ∧
    (∀ x mu, normal.logpdf x mu = normal.logpdf x mu 1) ∧
    (∀ x, normal.cdf x = normal.cdf x 0 1) ∧
    (∀ x mu, normal.cdf x mu = normal.cdf x mu 1) ∧
    (∀ x, normal.sf x = normal.sf x 0 1) ∧
    (∀ x mu, normal.sf x mu = normal.sf x mu 1) ∧
    (∀ p, normal.invcdf p = normal.invcdf p 0 1) ∧
    (∀ p mu, normal.invcdf p mu = normal.invcdf p mu 1) ∧
    (∀ p, normal.invsf p = normal.invsf p 0 1) ∧
    (∀ p mu, normal.invsf p mu = normal.invsf p mu 1) ∧
    (normal.support = normal.support 0 1) ∧
    (∀ mu, normal.support mu = normal.support mu 1) ∧
    (normal.mean = normal.mean 0 1) ∧
    (∀ mu, normal.mean mu = normal.mean mu 1) ∧
    (normal.median = normal.median 0 1) ∧
    (∀ mu, normal.median mu = normal.median mu 1) ∧
    (normal.mode = normal.mode 0 1) ∧
    (∀ mu, normal.mode mu = normal.mode mu 1) ∧
    (normal.entropy = normal.entropy 0 1) ∧
    (∀ mu, normal.entropy mu = normal.entropy mu 1) := by
  and_intros <;> intros <;> rfl

/-- C75 `pareto`: the omitted arguments are `loc = 0`, `scale = 1`, in
pdf, logpdf, cdf, invcdf, sf, invsf, support, mean, var, entropy, nll. -/
theorem pareto_defaults :
    (∀ x b, pareto.pdf x b = pareto.pdf x b 0 1) ∧
    (∀ x b loc, pareto.pdf x b loc = pareto.pdf x b loc 1) ∧
    (∀ x b, pareto.logpdf x b = pareto.logpdf x b 0 1) ∧
    (∀ x b loc, pareto.logpdf x b loc = pareto.logpdf x b loc 1) ∧
    (∀ x b, pareto.cdf x b = pareto.cdf x b 0 1) ∧
    (∀ x b loc, pareto.cdf x b loc = pareto.cdf x b loc 1) ∧
    (∀ p b, pareto.invcdf p b = pareto.invcdf p b 0 1) ∧
    (∀ p b loc, pareto.invcdf p b loc = pareto.invcdf p b loc 1) ∧
    (∀ x b, pareto.sf x b = pareto.sf x b 0 1) ∧
    (∀ x b loc, pareto.sf x b loc = pareto.sf x b loc 1) ∧
    (∀ p b, pareto.invsf p b = pareto.invsf p b 0 1) ∧
    (∀ p b loc, pareto.invsf p b loc = pareto.invsf p b loc 1) ∧
    (∀ b, pareto.support b = pareto.support b 0 1) ∧
    (∀ b loc, pareto.support b loc = pareto.support b loc 1) ∧
    (∀ b, pareto.mean b = pareto.mean b 0 1) ∧
    (∀ b loc, pareto.mean b loc = pareto.mean b loc 1) ∧
    (∀ b, pareto.var b = pareto.var b 0 1) ∧
    (∀ b loc, pareto.var b loc = pareto.var b loc 1) ∧
    (∀ b, pareto.entropy b = pareto.entropy b 0 1) ∧
    (∀ b loc, pareto.entropy b loc = pareto.entropy b loc 1) ∧
    (∀ x b, pareto.nll x b = pareto.nll x b 0 1) ∧
    (∀ x b loc, pareto.nll x b loc = pareto.nll x b loc 1) := by
  and_intros <;> intros <;> rfl

/-- C75 `power_normal`: the omitted arguments are `loc = 0`, `scale = 1`, in
pdf, logpdf, cdf, invcdf, sf, invsf, support. -/
theorem power_normal_defaults :
    (∀ x c, power_normal.pdf x c = power_normal.pdf x c 0 1) ∧
    (∀ x c loc, power_normal.pdf x c loc = power_normal.pdf x c loc 1) ∧
    (∀ x c, power_normal.logpdf x c = power_normal.logpdf x c 0 1) ∧
    (∀ x c loc, power_normal.logpdf x c loc = power_normal.logpdf x c loc 1) ∧
    (∀ x c, power_normal.cdf x c = power_normal.cdf x c 0 1) ∧
    (∀ x c loc, power_normal.cdf x c loc = power_normal.cdf x c loc 1) ∧
    (∀ p c, power_normal.invcdf p c = power_normal.invcdf p c 0 1) ∧
    (∀ p c loc, power_normal.invcdf p c loc = power_normal.invcdf p c loc 1) ∧
    (∀ x c, power_normal.sf x c = power_normal.sf x c 0 1) ∧
    (∀ x c loc, power_normal.sf x c loc = power_normal.sf x c loc 1) ∧
    (∀ p c, power_normal.invsf p c = power_normal.invsf p c 0 1) ∧
    (∀ p c loc, power_normal.invsf p c loc = power_normal.invsf p c loc 1) ∧
    (∀ c, power_normal.support c = power_normal.support c 0 1) ∧
    (∀ c loc, power_normal.support c loc = power_normal.support c loc 1) := by
  and_intros <;> intros <;> rfl

/-- C75 `tukeylambda`: the omitted arguments are `loc = 0`, `scale = 1`, in
invcdf, invsf, cdf, sf, pdf, logpdf, support, mean, var, noncentralMoment. -/
theorem tukeylambda_defaults :
    (∀ p lam, tukeylambda.invcdf p lam = tukeylambda.invcdf p lam 0 1) ∧
    (∀ p lam loc, tukeylambda.invcdf p lam loc = tukeylambda.invcdf p lam loc 1) ∧
    (∀ p lam, tukeylambda.invsf p lam = tukeylambda.invsf p lam 0 1) ∧
    (∀ p lam loc, tukeylambda.invsf p lam loc = tukeylambda.invsf p lam loc 1) ∧
    (∀ findroot eps x lam, tukeylambda.cdf findroot eps x lam = tukeylambda.cdf findroot eps x lam 0 1) ∧
    (∀ findroot eps x lam loc, tukeylambda.cdf findroot eps x lam loc = tukeylambda.cdf findroot eps x lam loc 1) ∧
    (∀ findroot eps x lam, tukeylambda.sf findroot eps x lam = tukeylambda.sf findroot eps x lam 0 1) ∧
    (∀ findroot eps x lam loc, tukeylambda.sf findroot eps x lam loc = tukeylambda.sf findroot eps x lam loc 1) ∧
    (∀ findroot eps x lam, tukeylambda.pdf findroot eps x lam = tukeylambda.pdf findroot eps x lam 0 1) ∧
    (∀ findroot eps x lam loc, tukeylambda.pdf findroot eps x lam loc = tukeylambda.pdf findroot eps x lam loc 1) ∧
    (∀ findroot eps x lam, tukeylambda.logpdf findroot eps x lam = tukeylambda.logpdf findroot eps x lam 0 1) ∧
    (∀ findroot eps x lam loc, tukeylambda.logpdf findroot eps x lam loc = tukeylambda.logpdf findroot eps x lam loc 1) ∧
    (∀ lam, tukeylambda.support lam = tukeylambda.support lam 0 1) ∧
    (∀ lam loc, tukeylambda.support lam loc = tukeylambda.support lam loc 1) ∧
    (∀ lam, tukeylambda.mean lam = tukeylambda.mean lam 0 1) ∧
    (∀ lam loc, tukeylambda.mean lam loc = tukeylambda.mean lam loc 1) ∧
    (∀ lam, tukeylambda.var lam = tukeylambda.var lam 0 1) ∧
    (∀ lam loc, tukeylambda.var lam loc = tukeylambda.var lam loc 1) ∧
    (∀ n lam, tukeylambda.noncentralMoment n lam = tukeylambda.noncentralMoment n lam 0 1) ∧
    (∀ n lam loc, tukeylambda.noncentralMoment n lam loc = tukeylambda.noncentralMoment n lam loc 1) := by
  and_intros <;> intros <;> rfl

/-- C75 `uniform`: the omitted arguments are `a = 0`, `b = 1`, in
pdf, logpdf, cdf, sf, invcdf, invsf, support, mean, median, var, entropy, noncentralMoment. -/
theorem uniform_defaults :
    (∀ x, uniform.pdf x = uniform.pdf x 0 1) ∧
    (∀ x a, uniform.pdf x a = uniform.pdf x a 1) ∧
    (∀ x, uniform.logpdf x = uniform.logpdf x 0 1) ∧
    (∀ x a, uniform.logpdf x a = uniform.logpdf x a 1) ∧
    (∀ x, uniform.cdf x = uniform.cdf x 0 1) ∧
    (∀ x a, uniform.cdf x a = uniform.cdf x a 1) ∧
    (∀ x, uniform.sf x = uniform.sf x 0 1) ∧
    (∀ x a, uniform.sf x a = uniform.sf x a 1) ∧
    (∀ p, uniform.invcdf p = uniform.invcdf p 0 1) ∧
    (∀ p a, uniform.invcdf p a = uniform.invcdf p a 1) ∧
    (∀ p, uniform.invsf p = uniform.invsf p 0 1) ∧
    (∀ p a, uniform.invsf p a = uniform.invsf p a 1) ∧
    (uniform.support = uniform.support 0 1) ∧
    (∀ a, uniform.support a = uniform.support a 1) ∧
    (uniform.mean = uniform.mean 0 1) ∧
    (∀ a, uniform.mean a = uniform.mean a 1) ∧
    (uniform.median = uniform.median 0 1) ∧
    (∀ a, uniform.median a = uniform.median a 1) ∧
    (uniform.var = uniform.var 0 1) ∧
    (∀ a, uniform.var a = uniform.var a 1) ∧
    (uniform.entropy = uniform.entropy 0 1) ∧
    (∀ a, uniform.entropy a = uniform.entropy a 1) ∧
    (∀ n, uniform.noncentralMoment n = uniform.noncentralMoment n 0 1) ∧
    (∀ n a, uniform.noncentralMoment n a = uniform.noncentralMoment n a 1) := by
  and_intros <;> intros <;> rfl

/-- C75 `vonmises`: the omitted arguments are `mu = 0`, in
pdf, logpdf, circmean, circvar, support, entropy. -/
theorem vonmises_defaults :
    (∀ x kappa, vonmises.pdf x kappa = vonmises.pdf x kappa 0) ∧
    (∀ x kappa, vonmises.logpdf x kappa = vonmises.logpdf x kappa 0) ∧
    (∀ _kappa, vonmises.circmean _kappa = vonmises.circmean _kappa 0) ∧
    (∀ kappa, vonmises.circvar kappa = vonmises.circvar kappa 0) ∧
    (∀ _kappa, vonmises.support _kappa = vonmises.support _kappa 0) ∧
    (∀ kappa, vonmises.entropy kappa = vonmises.entropy kappa 0) := by
  and_intros <;> intros <;> rfl

/-- C75 `weibull_min`: the omitted arguments are `loc = 0`, `scale = 1`, in
noncentralMoment. -/
theorem weibull_min_defaults :
    (∀ n k, weibull_min.noncentralMoment n k = weibull_min.noncentralMoment n k 0 1) ∧
    (∀ n k loc, weibull_min.noncentralMoment n k loc = weibull_min.noncentralMoment n k loc 1) := by
  and_intros <;> intros <;> rfl

/-- C75 `weibull_max`: the omitted arguments are `loc = 0`, `scale = 1`, in
noncentralMoment. -/
theorem weibull_max_defaults :
    (∀ n k, weibull_max.noncentralMoment n k = weibull_max.noncentralMoment n k 0 1) ∧
    (∀ n k loc, weibull_max.noncentralMoment n k loc = weibull_max.noncentralMoment n k loc 1) := by
  and_intros <;> intros <;> rfl

/-- C75 `benini`: the omitted arguments are `scale = 1`, in
noncentralMoment. -/
theorem benini_defaults :
    (∀ n alpha beta, benini.noncentralMoment n alpha beta = benini.noncentralMoment n alpha beta 1) := by
  and_intros <;> intros <;> rfl

/-- C75 fails: `normal.nll` takes `mu = 1` where the other functions take `mu = 0`, so without parameters it is not the
negative log-likelihood of `normal.logpdf`. -/
theorem normal_nll_default :
    (∀ x, normal.nll x = normal.nll x 1 1) ∧ (∀ x mu, normal.nll x mu = normal.nll x mu 1) ∧
    ¬ NllIsNegSum Set.univ (fun x => normal.logpdf x) (fun x => normal.nll x) := by
  refine ⟨fun _ => rfl, fun _ _ => rfl, fun h => ?_⟩
  obtain ⟨l, h1, h2⟩ := h [0] (by simp)
  obtain ⟨l', g1, g2⟩ := normal.nll_spec (loc := 1) (s := 1) one_pos [0] (by simp)
  have h2 := (show normal.nll ([(0:ℝ)].map fin) (fin 1) (fin 1) = _ from g2).symm.trans h2
  rw [List.forall₂_cons_left_iff] at h1 g1
  obtain ⟨a, _, ha, e1, rfl⟩ := h1
  obtain ⟨b, _, hb, e2, rfl⟩ := g1
  rw [List.forall₂_nil_left_iff] at e1 e2
  subst e1 e2
  have e3 : normal.logpdf (fin 0) (fin 0) (fin 1) = .ok (fin a) := ha
  beta_reduce at hb
  rw [normal.logpdf_nl one_pos] at e3 hb
  have h3 := Num.fin.inj (Except.ok.inj h2)
  have h4 := Num.fin.inj (Except.ok.inj e3)
  have h5 := Num.fin.inj (Except.ok.inj hb)
  simp only [List.sum_cons, List.sum_nil] at h3
  norm_num [normal.nl] at h3 h4 h5
  linarith

end Mpsci
