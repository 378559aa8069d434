import Verif.Props.Dist.WeibullMin
import Verif.Props.Dist.WeibullMax
import Verif.Props.Dist.Gumbel
import Verif.Props.Dist.Laplace
import Verif.Props.Dist.Logistic
import Verif.Props.Dist.Cauchy
import Verif.Props.Dist.HalfLogistic
import Verif.Props.Dist.Uniform
import Verif.Props.Dist.Pareto
import Verif.Props.Dist.Loglogistic
import Verif.Props.Dist.Gompertz
import Verif.Props.Dist.Benini
import Verif.Props.Dist.Burr12
import Verif.Props.Dist.Kumaraswamy
import Verif.Props.Dist.GammaGompertz
import Verif.Props.Dist.Exponweib
import Verif.Props.Dist.Hypsecant
import Verif.Props.Dist.Genpareto
import Verif.Props.Dist.Genextreme
import Verif.Props.Dist.Cosine
import Verif.Props.Dist.Benktander1
import Verif.Props.Dist.Benktander2
import Verif.Props.Dist.Genexpon
import Verif.Props.Dist.Normal
import Verif.Props.Dist.Lognormal
import Verif.Props.Dist.PowerNormal
import Verif.Props.Dist.Truncnorm
import Verif.Props.Dist.FoldedNormal
import Verif.Props.Dist.Slash
import Verif.Props.Fit.Laplace
import Verif.Props.Fit.Gumbel
import Verif.Props.Fit.Logistic
import Verif.Props.Fit.Pareto
import Verif.Props.Fit.Gompertz
import Verif.Props.Fit.Kumaraswamy
import Verif.Props.Fit.Weibull
import Verif.Props.Fit.WeibullExists
import Verif.Props.Fit.Burr12
import Verif.Props.Fit.Benini
import Verif.Props.Fit.Poisson
import Verif.Props.Fit.Binomial
import Verif.Props.Disc.NegBinomial
import Verif.Props.Disc.BetaBinomial
import Verif.Props.Fit.NegBinomial
import Verif.Props.Fit.BetaBinomial
import Verif.Props.Disc.Logseries
import Verif.Props.Fit.Logseries
import Verif.Props.Disc.TruncDiscreteExp
import Verif.Props.Disc.GaussKuzmin
import Verif.Props.Disc.PoissonMoments
import Verif.Props.SpecialCases
import Verif.Props.Stats.FisherExact
import Verif.Props.Stats.OddsRatio
import Verif.Props.Stats.Means
import Verif.Props.Stats.Var
import Verif.Props.Stats.UniqueCounts
import Verif.Props.Stats.Boxcox
import Verif.Props.Stats.Pearsonr
import Verif.Props.Stats.Anova
import Verif.Props.Stats.Goftests
import Verif.Props.Fun.Powm1
import Verif.Props.Fun.Log
import Verif.Props.Common.Bracket
import Verif.Props.Fun.Bisect
import Verif.Props.Dist.Nct
import Verif.Props.Dist.Dirichlet
import Verif.Props.Dist.MultivariateT
import Verif.Props.Disc.Binomial
import Verif.Props.Disc.Poisson
import Verif.Props.Disc.Hypergeometric
import Verif.Props.Disc.NegHypergeometric
import Verif.Props.Disc.MultiHypergeometric
import Verif.Props.Disc.FishersNCHypergeometric
import Verif.Base.GammaInc
import Verif.Lemmas.GammaDist
import Verif.Lemmas.Psi
import Verif.Lemmas.PsiSeries
import Verif.Spec.Search
import Verif.Model.Common.Search
import Verif.Lemmas.Search
import Verif.Model.Dist.Gamma
import Verif.Lemmas.Dist.Gamma
import Verif.Props.Dist.Gamma
import Verif.Model.Fun.Digammainv
import Verif.Lemmas.Newton
import Verif.Lemmas.Fun.Digammainv
import Verif.Props.Fun.Digammainv
import Verif.Spec.Derivs
import Verif.Model.Fit.Gamma
import Verif.Lemmas.Fit.Gamma
import Verif.Props.Fit.Gamma
import Verif.Lemmas.NakDist
import Verif.Props.Dist.Chi
import Verif.Props.Dist.Chi2
import Verif.Lemmas.GammaShape
import Verif.Lemmas.GenericInv
import Verif.Props.Dist.Nakagami
import Verif.Props.Fit.Nakagami
import Verif.Props.Dist.Maxwell
import Verif.Props.Dist.InvGamma
import Verif.Props.Dist.InvChi2
import Verif.Props.Dist.Levy
import Verif.Props.Dist.LogGamma
import Verif.Props.Fit.LogGamma
import Verif.Props.Dist.Beta
import Verif.Props.Fit.Beta
import Verif.Props.Fit.BetaPrime
import Verif.Props.Dist.F
import Verif.Props.Dist.StudentT
import Verif.Props.Dist.InvGauss
import Verif.Props.Dist.Argus
import Verif.Props.Dist.RelBreitwigner
import Verif.Props.Dist.TukeyLambda
import Verif.Props.Dist.BetaPrime
import Verif.Props.Moments.Basic
import Verif.Props.Moments.Cauchy
import Verif.Props.Moments.Weibull
import Verif.Props.Moments.Beta
import Verif.Props.Moments.Gompertz
import Verif.Props.Moments.Benini
import Verif.Props.Moments.Exponweib
import Verif.Props.Fit.Hypsecant
import Verif.Props.Dist.Vonmises
import Verif.Props.Dist.GenInvGauss
import Verif.Props.Dist.GenHyperbolic
import Verif.Props.Fun.Special
import Verif.Props.Fun.Legendre
import Verif.Props.Fun.Faddeeva
import Verif.Props.Fit.GammaSe
import Verif.Props.Disc.Support
import Verif.Props.Fun.Marcum
import Verif.Props.Dist.Ncx2
import Verif.Props.Dist.Rice
import Verif.Props.Dist.Ncf
import Verif.Props.Support
import Verif.Props.Fit.BetaCens
import Verif.Props.Stats.FisherOdds
import Verif.Props.Stats.PValues
import Verif.Props.Fun.Betaincinv
import Verif.Props.Defaults
import Verif.Props.NanArgs
import Verif.Props.Order
import Verif.Props.OrderStats
import Verif.Spec.Affine
import Verif.Props.Affine
import Verif.Props.AffineNll
import Verif.Spec.Mirror
import Verif.Props.Mirror
import Verif.Spec.Copies
import Verif.Props.Copies
