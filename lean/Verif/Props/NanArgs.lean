import Verif.Lemmas.Dist.Beta
import Verif.Lemmas.Dist.Vonmises
import Verif.Model.Dist.Benini
import Verif.Model.Dist.Benktander2
import Verif.Model.Dist.Beta
import Verif.Model.Dist.BetaPrime
import Verif.Model.Dist.Burr12
import Verif.Model.Dist.Cauchy
import Verif.Model.Dist.Chi
import Verif.Model.Dist.Chi2
import Verif.Model.Dist.Cosine
import Verif.Model.Dist.Exponweib
import Verif.Model.Dist.F
import Verif.Model.Dist.FoldedNormal
import Verif.Model.Dist.Gamma
import Verif.Model.Dist.GammaGompertz
import Verif.Model.Dist.Genexpon
import Verif.Model.Dist.Genextreme
import Verif.Model.Dist.Genpareto
import Verif.Model.Dist.Gompertz
import Verif.Model.Dist.Gumbel
import Verif.Model.Dist.HalfLogistic
import Verif.Model.Dist.Hypsecant
import Verif.Model.Dist.InvChi2
import Verif.Model.Dist.InvGamma
import Verif.Model.Dist.InvGauss
import Verif.Model.Dist.Kumaraswamy
import Verif.Model.Dist.Laplace
import Verif.Model.Dist.Levy
import Verif.Model.Dist.LogGamma
import Verif.Model.Dist.Logistic
import Verif.Model.Dist.Loglogistic
import Verif.Model.Dist.Lognormal
import Verif.Model.Dist.Maxwell
import Verif.Model.Dist.Nakagami
import Verif.Model.Dist.Normal
import Verif.Model.Dist.Pareto
import Verif.Model.Dist.PowerNormal
import Verif.Model.Dist.RelBreitwigner
import Verif.Model.Dist.Slash
import Verif.Model.Dist.StudentT
import Verif.Model.Dist.Uniform
import Verif.Model.Dist.Vonmises
import Verif.Model.Dist.Weibull
import Verif.Spec.Nan

/-!
# C76: a nan argument gives a nan result

`NanToNan f`: called with `nan`, `f` returns `nan` — it neither raises nor turns the missing value
into a number.  Proved for all valid parameters.  The functions left out are the ones that hand
`nan` to an mpmath function whose value there is not modelled (`gammainc`, `betainc`, `erfinv`,
`lambertw`, `besseli` of a non-integer order), and `uniform.pdf` and `uniform.logpdf`, which are
wrong (`uniform_pdf_nan`, `uniform_logpdf_nan`).
-/

namespace Mpsci.NanArgs

open Classical Num Spec common

set_option linter.unusedSimpArgs false
set_option maxHeartbeats 1000000

theorem nan_div_fin {y : ℝ} (h : y ≠ 0) : nan /. fin y = .ok nan := by show Num.div _ _ = _; simp [Num.div, h]
@[local simp] theorem div_nan (x : Num) : x /. nan = .ok nan := by cases x <;> rfl
@[local simp] theorem abs_nan : Num.abs nan = nan := rfl
@[local simp] theorem log1p_nan : mp.log1p nan = .ok nan := by simp [mp.log1p]
@[local simp] theorem sqrt_nan : mp.sqrt nan = .ok nan := rfl
@[local simp] theorem ipow_nan_two : mp.ipow nan 2 = nan := by simp [mp.ipow]
@[local simp] theorem ipow_nan_three : mp.ipow nan 3 = nan := by simp [mp.ipow]
@[local simp] theorem power_nan (x : Num) : mp.power nan x = .ok nan := by cases x <;> simp [mp.power]
@[local simp] theorem tan_nan : mp.tan nan = .ok nan := rfl
@[local simp] theorem cot_nan : mp.cot nan = .ok nan := rfl
@[local simp] theorem tanh_nan : mp.tanh nan = nan := rfl
@[local simp] theorem sinh_nan : mp.sinh nan = nan := rfl
@[local simp] theorem cosh_nan : mp.cosh nan = nan := rfl
@[local simp] theorem sech_nan : mp.sech nan = nan := rfl
@[local simp] theorem atan_nan : mp.atan nan = nan := rfl
@[local simp] theorem atan2_nan (y : ℝ) : mp.atan2pos y nan = nan := rfl
@[local simp] theorem erf_nan : mp.erf nan = nan := rfl
@[local simp] theorem cos_nan : mp.cos nan = nan := rfl
@[local simp] theorem sin_nan : mp.sin nan = nan := rfl
@[local simp] theorem erfc_nan : mp.erfc nan = nan := rfl
@[local simp] theorem powm1_nan (x : Num) : mp.powm1 nan x = .ok nan := by simp [mp.powm1]
attribute [local simp] mp.ncdf3 mp.npdf mp.ncdf

theorem laplace_nan {m s : ℝ} (hs : 0 < s) :
    NanToNan (laplace.pdf · (fin m) (fin s)) ∧
    NanToNan (laplace.logpdf · (fin m) (fin s)) ∧
    NanToNan (laplace.cdf · (fin m) (fin s)) ∧
    NanToNan (laplace.sf · (fin m) (fin s)) ∧
    NanToNan (laplace.invcdf · (fin m) (fin s)) ∧
    NanToNan (laplace.invsf · (fin m) (fin s)) := by
  simp (disch := first | positivity | assumption) [NanToNan, fin_div, nan_div_fin, mp.log_pos, mp.sqrt_nonneg, mp.power_pos,
    mp.loggamma_pos, mp.gamma_pos, mp.rgamma_pos, gt_iff, laplace.pdf, laplace.logpdf, laplace.cdf, laplace.sf, laplace.invcdf, laplace.invsf, common.validateLocScale, hs.not_ge, hs.ne', hs]

theorem logistic_nan {m s : ℝ} (hs : 0 < s) :
    NanToNan (logistic.pdf · (fin m) (fin s)) ∧
    NanToNan (logistic.logpdf · (fin m) (fin s)) ∧
    NanToNan (logistic.cdf · (fin m) (fin s)) ∧
    NanToNan (logistic.sf · (fin m) (fin s)) ∧
    NanToNan (logistic.invcdf · (fin m) (fin s)) ∧
    NanToNan (logistic.invsf · (fin m) (fin s)) := by
  simp (disch := first | positivity | assumption) [NanToNan, fin_div, nan_div_fin, mp.log_pos, mp.sqrt_nonneg, mp.power_pos,
    mp.loggamma_pos, mp.gamma_pos, mp.rgamma_pos, gt_iff, logistic.pdf, logistic.logpdf, logistic.cdf, logistic.sf, logistic.invcdf, logistic.invsf, common.validateLocScale, common.validateP, hs.not_ge, hs.ne', hs]

theorem cauchy_nan {m s : ℝ} (hs : 0 < s) :
    NanToNan (cauchy.pdf · (fin m) (fin s)) ∧
    NanToNan (cauchy.logpdf · (fin m) (fin s)) ∧
    NanToNan (cauchy.cdf · (fin m) (fin s)) ∧
    NanToNan (cauchy.sf · (fin m) (fin s)) ∧
    NanToNan (cauchy.invcdf · (fin m) (fin s)) ∧
    NanToNan (cauchy.invsf · (fin m) (fin s)) := by
  simp (disch := first | positivity | assumption) [NanToNan, fin_div, nan_div_fin, mp.log_pos, mp.sqrt_nonneg, mp.power_pos,
    mp.loggamma_pos, mp.gamma_pos, mp.rgamma_pos, gt_iff, cauchy.pdf, cauchy.logpdf, cauchy.cdf, cauchy.sf, cauchy.invcdf, cauchy.invsf, common.validateLocScale, common.validateP, hs.not_ge, hs.ne', hs]

theorem half_logistic_nan {m s : ℝ} (hs : 0 < s) :
    NanToNan (half_logistic.pdf · (fin m) (fin s)) ∧
    NanToNan (half_logistic.logpdf · (fin m) (fin s)) ∧
    NanToNan (half_logistic.cdf · (fin m) (fin s)) ∧
    NanToNan (half_logistic.sf · (fin m) (fin s)) ∧
    NanToNan (half_logistic.invcdf · (fin m) (fin s)) ∧
    NanToNan (half_logistic.invsf · (fin m) (fin s)) := by
  simp (disch := first | positivity | assumption) [NanToNan, fin_div, nan_div_fin, mp.log_pos, mp.sqrt_nonneg, mp.power_pos,
    mp.loggamma_pos, mp.gamma_pos, mp.rgamma_pos, gt_iff, half_logistic.pdf, half_logistic.logpdf, half_logistic.cdf, half_logistic.sf, half_logistic.invcdf, half_logistic.invsf, common.validateLocScale, common.validateP, hs.not_ge, hs.ne', hs]

theorem hypsecant_nan {m s : ℝ} (hs : 0 < s) :
    NanToNan (hypsecant.pdf · (fin m) (fin s)) ∧
    NanToNan (hypsecant.logpdf · (fin m) (fin s)) ∧
    NanToNan (hypsecant.cdf · (fin m) (fin s)) ∧
    NanToNan (hypsecant.sf · (fin m) (fin s)) ∧
    NanToNan (hypsecant.invcdf · (fin m) (fin s)) ∧
    NanToNan (hypsecant.invsf · (fin m) (fin s)) := by
  simp (disch := first | positivity | assumption) [NanToNan, fin_div, nan_div_fin, mp.log_pos, mp.sqrt_nonneg, mp.power_pos,
    mp.loggamma_pos, mp.gamma_pos, mp.rgamma_pos, gt_iff, hypsecant.pdf, hypsecant.logpdf, hypsecant.cdf, hypsecant.sf, hypsecant.invcdf, hypsecant.invsf, hypsecant.validateArgs, common.validateLocScale, common.validateP, common.validateXBounds, hs.not_ge, hs.ne', hs]

theorem gumbel_max_nan {m s : ℝ} (hs : 0 < s) :
    NanToNan (gumbel_max.pdf · (fin m) (fin s)) ∧
    NanToNan (gumbel_max.logpdf · (fin m) (fin s)) ∧
    NanToNan (gumbel_max.cdf · (fin m) (fin s)) ∧
    NanToNan (gumbel_max.sf · (fin m) (fin s)) ∧
    NanToNan (gumbel_max.invcdf · (fin m) (fin s)) ∧
    NanToNan (gumbel_max.invsf · (fin m) (fin s)) := by
  simp (disch := first | positivity | assumption) [NanToNan, fin_div, nan_div_fin, mp.log_pos, mp.sqrt_nonneg, mp.power_pos,
    mp.loggamma_pos, mp.gamma_pos, mp.rgamma_pos, gt_iff, gumbel_max.pdf, gumbel_max.logpdf, gumbel_max.cdf, gumbel_max.sf, gumbel_max.invcdf, gumbel_max.invsf, common.validateLocScale, common.validateP, hs.not_ge, hs.ne', hs]

theorem gumbel_min_nan {m s : ℝ} (hs : 0 < s) :
    NanToNan (gumbel_min.pdf · (fin m) (fin s)) ∧
    NanToNan (gumbel_min.logpdf · (fin m) (fin s)) ∧
    NanToNan (gumbel_min.cdf · (fin m) (fin s)) ∧
    NanToNan (gumbel_min.sf · (fin m) (fin s)) ∧
    NanToNan (gumbel_min.invcdf · (fin m) (fin s)) ∧
    NanToNan (gumbel_min.invsf · (fin m) (fin s)) := by
  simp (disch := first | positivity | assumption) [NanToNan, fin_div, nan_div_fin, mp.log_pos, mp.sqrt_nonneg, mp.power_pos,
    mp.loggamma_pos, mp.gamma_pos, mp.rgamma_pos, gt_iff, gumbel_min.pdf, gumbel_min.logpdf, gumbel_min.cdf, gumbel_min.sf, gumbel_min.invcdf, gumbel_min.invsf, common.validateLocScale, common.validateP, hs.not_ge, hs.ne', hs]

theorem normal_nan {m s : ℝ} (hs : 0 < s) :
    NanToNan (normal.pdf · (fin m) (fin s)) ∧
    NanToNan (normal.logpdf · (fin m) (fin s)) ∧
    NanToNan (normal.cdf · (fin m) (fin s)) ∧
    NanToNan (normal.sf · (fin m) (fin s)) := by
  simp (disch := first | positivity | assumption) [NanToNan, fin_div, nan_div_fin, mp.log_pos, mp.sqrt_nonneg, mp.power_pos,
    mp.loggamma_pos, mp.gamma_pos, mp.rgamma_pos, gt_iff, normal.pdf, normal.logpdf, normal.cdf, normal.sf, common.validateLocScale, common.validateP, hs.not_ge, hs.ne', hs]

theorem lognormal_nan {m s : ℝ} (hs : 0 < s) :
    NanToNan (lognormal.pdf · (fin m) (fin s)) ∧
    NanToNan (lognormal.logpdf · (fin m) (fin s)) ∧
    NanToNan (lognormal.cdf · (fin m) (fin s)) ∧
    NanToNan (lognormal.sf · (fin m) (fin s)) := by
  simp (disch := first | positivity | assumption) [NanToNan, fin_div, nan_div_fin, mp.log_pos, mp.sqrt_nonneg, mp.power_pos,
    mp.loggamma_pos, mp.gamma_pos, mp.rgamma_pos, gt_iff, lognormal.pdf, lognormal.logpdf, lognormal.cdf, lognormal.sf, lognormal.validate, common.validateMomentN, common.validateP, common.validateXBounds, hs.not_ge, hs.ne', hs]

theorem uniform_nan {a b : ℝ} (ha : a < b) :
    NanToNan (uniform.cdf · (fin a) (fin b)) ∧
    NanToNan (uniform.sf · (fin a) (fin b)) ∧
    NanToNan (uniform.invcdf · (fin a) (fin b)) ∧
    NanToNan (uniform.invsf · (fin a) (fin b)) := by
  simp (disch := first | positivity | assumption) [NanToNan, fin_div, nan_div_fin, mp.log_pos, mp.sqrt_nonneg, mp.power_pos,
    mp.loggamma_pos, mp.gamma_pos, mp.rgamma_pos, gt_iff, uniform.cdf, uniform.sf, uniform.invcdf, uniform.invsf, uniform.validate, common.validateMomentN, common.validateP, ha.not_ge, ha.ne', ha, (sub_pos.2 ha).ne', nan_div_fin (sub_pos.2 ha).ne']

theorem pareto_nan {b m s : ℝ} (hb : 0 < b) (hs : 0 < s) :
    NanToNan (pareto.pdf · (fin b) (fin m) (fin s)) ∧
    NanToNan (pareto.logpdf · (fin b) (fin m) (fin s)) ∧
    NanToNan (pareto.cdf · (fin b) (fin m) (fin s)) ∧
    NanToNan (pareto.sf · (fin b) (fin m) (fin s)) ∧
    NanToNan (pareto.invcdf · (fin b) (fin m) (fin s)) ∧
    NanToNan (pareto.invsf · (fin b) (fin m) (fin s)) := by
  simp (disch := first | positivity | assumption) [NanToNan, fin_div, nan_div_fin, mp.log_pos, mp.sqrt_nonneg, mp.power_pos,
    mp.loggamma_pos, mp.gamma_pos, mp.rgamma_pos, gt_iff, pareto.pdf, pareto.logpdf, pareto.cdf, pareto.sf, pareto.invcdf, pareto.invsf, common.validateP, pareto.validateParams, hb.not_ge, hb.ne', hb, hs.not_ge, hs.ne', hs, fin_div _ (neg_ne_zero.2 hb.ne'), fun_.invPowm1, fun_.xlog1py]

theorem genpareto_nan {k m s : ℝ} (hs : 0 < s) :
    NanToNan (genpareto.pdf · (fin k) (fin m) (fin s)) ∧
    NanToNan (genpareto.logpdf · (fin k) (fin m) (fin s)) ∧
    NanToNan (genpareto.cdf · (fin k) (fin m) (fin s)) ∧
    NanToNan (genpareto.sf · (fin k) (fin m) (fin s)) ∧
    NanToNan (genpareto.invcdf · (fin k) (fin m) (fin s)) ∧
    NanToNan (genpareto.invsf · (fin k) (fin m) (fin s)) := by
  rcases lt_trichotomy k 0 with hk | hk | hk
  · have hk0 := hk.ne
    simp (disch := first | positivity | assumption) [NanToNan, fin_div, nan_div_fin, mp.log_pos, mp.sqrt_nonneg, mp.power_pos,
    mp.loggamma_pos, mp.gamma_pos, mp.rgamma_pos, gt_iff, hk, hk.ne, hk.not_gt, hk.not_ge, hk.le, div_lt_iff_of_neg, genpareto.pdf, genpareto.logpdf, genpareto.cdf, genpareto.sf, genpareto.invcdf, genpareto.invsf, common.validateP, genpareto.validateParams, common.validateXBounds, hs.not_ge, hs.ne', hs, fun_.pow1pm1, fun_.xlog1py, genpareto.outside]
  · subst hk; simp (disch := first | positivity | assumption) [NanToNan, fin_div, nan_div_fin, mp.log_pos, mp.sqrt_nonneg, mp.power_pos,
    mp.loggamma_pos, mp.gamma_pos, mp.rgamma_pos, gt_iff, genpareto.pdf, genpareto.logpdf, genpareto.cdf, genpareto.sf, genpareto.invcdf, genpareto.invsf, common.validateP, genpareto.validateParams, common.validateXBounds, hs.not_ge, hs.ne', hs, fun_.pow1pm1, fun_.xlog1py, genpareto.outside]
  · have hk0 := hk.ne'
    simp (disch := first | positivity | assumption) [NanToNan, fin_div, nan_div_fin, mp.log_pos, mp.sqrt_nonneg, mp.power_pos,
    mp.loggamma_pos, mp.gamma_pos, mp.rgamma_pos, gt_iff, hk, hk.ne', hk.not_gt, hk.not_ge, hk.le, genpareto.pdf, genpareto.logpdf, genpareto.cdf, genpareto.sf, genpareto.invcdf, genpareto.invsf, common.validateP, genpareto.validateParams, common.validateXBounds, hs.not_ge, hs.ne', hs, fun_.pow1pm1, fun_.xlog1py, genpareto.outside]

theorem genextreme_nan {k m s : ℝ} (hs : 0 < s) :
    NanToNan (genextreme.pdf · (fin k) (fin m) (fin s)) ∧
    NanToNan (genextreme.logpdf · (fin k) (fin m) (fin s)) ∧
    NanToNan (genextreme.cdf · (fin k) (fin m) (fin s)) ∧
    NanToNan (genextreme.sf · (fin k) (fin m) (fin s)) ∧
    NanToNan (genextreme.logcdf · (fin k) (fin m) (fin s)) ∧
    NanToNan (genextreme.invcdf · (fin k) (fin m) (fin s)) ∧
    NanToNan (genextreme.invsf · (fin k) (fin m) (fin s)) := by
  rcases lt_trichotomy k 0 with hk | hk | hk
  · have hk0 := hk.ne
    simp (disch := first | positivity | assumption) [NanToNan, fin_div, nan_div_fin, mp.log_pos, mp.sqrt_nonneg, mp.power_pos,
    mp.loggamma_pos, mp.gamma_pos, mp.rgamma_pos, gt_iff, hk, hk.ne, hk.not_gt, hk.not_ge, hk.le, div_lt_iff_of_neg, genextreme.pdf, genextreme.logpdf, genextreme.cdf, genextreme.sf, genextreme.logcdf, genextreme.invcdf, genextreme.invsf, common.validateMomentN, common.validateP, genextreme.validateParams, hs.not_ge, hs.ne', hs]
  · subst hk; simp (disch := first | positivity | assumption) [NanToNan, fin_div, nan_div_fin, mp.log_pos, mp.sqrt_nonneg, mp.power_pos,
    mp.loggamma_pos, mp.gamma_pos, mp.rgamma_pos, gt_iff, genextreme.pdf, genextreme.logpdf, genextreme.cdf, genextreme.sf, genextreme.logcdf, genextreme.invcdf, genextreme.invsf, common.validateMomentN, common.validateP, genextreme.validateParams, hs.not_ge, hs.ne', hs]
  · have hk0 := hk.ne'
    simp (disch := first | positivity | assumption) [NanToNan, fin_div, nan_div_fin, mp.log_pos, mp.sqrt_nonneg, mp.power_pos,
    mp.loggamma_pos, mp.gamma_pos, mp.rgamma_pos, gt_iff, hk, hk.ne', hk.not_gt, hk.not_ge, hk.le, genextreme.pdf, genextreme.logpdf, genextreme.cdf, genextreme.sf, genextreme.logcdf, genextreme.invcdf, genextreme.invsf, common.validateMomentN, common.validateP, genextreme.validateParams, hs.not_ge, hs.ne', hs]

theorem weibull_min_nan {k m s : ℝ} (hk : 0 < k) (hs : 0 < s) :
    NanToNan (weibull_min.pdf · (fin k) (fin m) (fin s)) ∧
    NanToNan (weibull_min.logpdf · (fin k) (fin m) (fin s)) ∧
    NanToNan (weibull_min.cdf · (fin k) (fin m) (fin s)) ∧
    NanToNan (weibull_min.sf · (fin k) (fin m) (fin s)) ∧
    NanToNan (weibull_min.invcdf · (fin k) (fin m) (fin s)) ∧
    NanToNan (weibull_min.invsf · (fin k) (fin m) (fin s)) := by
  simp (disch := first | positivity | assumption) [NanToNan, fin_div, nan_div_fin, mp.log_pos, mp.sqrt_nonneg, mp.power_pos,
    mp.loggamma_pos, mp.gamma_pos, mp.rgamma_pos, gt_iff, weibull_min.pdf, weibull_min.logpdf, weibull_min.cdf, weibull_min.sf, weibull_min.invcdf, weibull_min.invsf, common.validateMomentN, common.validateP, weibull_common.validateParams, hk.not_ge, hk.ne', hk, hs.not_ge, hs.ne', hs]

theorem weibull_max_nan {k m s : ℝ} (hk : 0 < k) (hs : 0 < s) :
    NanToNan (weibull_max.pdf · (fin k) (fin m) (fin s)) ∧
    NanToNan (weibull_max.logpdf · (fin k) (fin m) (fin s)) ∧
    NanToNan (weibull_max.cdf · (fin k) (fin m) (fin s)) ∧
    NanToNan (weibull_max.sf · (fin k) (fin m) (fin s)) ∧
    NanToNan (weibull_max.invcdf · (fin k) (fin m) (fin s)) ∧
    NanToNan (weibull_max.invsf · (fin k) (fin m) (fin s)) := by
  simp (disch := first | positivity | assumption) [NanToNan, fin_div, nan_div_fin, mp.log_pos, mp.sqrt_nonneg, mp.power_pos,
    mp.loggamma_pos, mp.gamma_pos, mp.rgamma_pos, gt_iff, weibull_max.pdf, weibull_max.logpdf, weibull_max.cdf, weibull_max.sf, weibull_max.invcdf, weibull_max.invsf, common.validateMomentN, common.validateP, weibull_common.validateParams, hk.not_ge, hk.ne', hk, hs.not_ge, hs.ne', hs]

theorem kumaraswamy_nan {a b : ℝ} (ha : 0 < a) (hb : 0 < b) :
    NanToNan (kumaraswamy.pdf · (fin a) (fin b)) ∧
    NanToNan (kumaraswamy.logpdf · (fin a) (fin b)) ∧
    NanToNan (kumaraswamy.cdf · (fin a) (fin b)) ∧
    NanToNan (kumaraswamy.sf · (fin a) (fin b)) ∧
    NanToNan (kumaraswamy.invcdf · (fin a) (fin b)) ∧
    NanToNan (kumaraswamy.invsf · (fin a) (fin b)) := by
  simp (disch := first | positivity | assumption) [NanToNan, fin_div, nan_div_fin, mp.log_pos, mp.sqrt_nonneg, mp.power_pos,
    mp.loggamma_pos, mp.gamma_pos, mp.rgamma_pos, gt_iff, kumaraswamy.pdf, kumaraswamy.logpdf, kumaraswamy.cdf, kumaraswamy.sf, kumaraswamy.invcdf, kumaraswamy.invsf, kumaraswamy.harmonicNumber, kumaraswamy.validateAB, common.validateMomentN, common.validateP, ha.not_ge, ha.ne', ha, hb.not_ge, hb.ne', hb, fun_.invPowm1, fun_.xlog1py]

theorem gompertz_nan {c s : ℝ} (hc : 0 < c) (hs : 0 < s) :
    NanToNan (gompertz.pdf · (fin c) (fin s)) ∧
    NanToNan (gompertz.logpdf · (fin c) (fin s)) ∧
    NanToNan (gompertz.cdf · (fin c) (fin s)) ∧
    NanToNan (gompertz.sf · (fin c) (fin s)) ∧
    NanToNan (gompertz.invcdf · (fin c) (fin s)) ∧
    NanToNan (gompertz.invsf · (fin c) (fin s)) := by
  simp (disch := first | positivity | assumption) [NanToNan, fin_div, nan_div_fin, mp.log_pos, mp.sqrt_nonneg, mp.power_pos,
    mp.loggamma_pos, mp.gamma_pos, mp.rgamma_pos, gt_iff, gompertz.pdf, gompertz.logpdf, gompertz.cdf, gompertz.sf, gompertz.invcdf, gompertz.invsf, gompertz.validateCScale, common.validateP, hc.not_ge, hc.ne', hc, hs.not_ge, hs.ne', hs]

theorem gamma_gompertz_nan {c b s : ℝ} (hc : 0 < c) (hb : 0 < b) (hs : 0 < s) :
    NanToNan (gamma_gompertz.pdf · (fin c) (fin b) (fin s)) ∧
    NanToNan (gamma_gompertz.logpdf · (fin c) (fin b) (fin s)) ∧
    NanToNan (gamma_gompertz.cdf · (fin c) (fin b) (fin s)) ∧
    NanToNan (gamma_gompertz.sf · (fin c) (fin b) (fin s)) ∧
    NanToNan (gamma_gompertz.invcdf · (fin c) (fin b) (fin s)) ∧
    NanToNan (gamma_gompertz.invsf · (fin c) (fin b) (fin s)) := by
  simp (disch := first | positivity | assumption) [NanToNan, fin_div, nan_div_fin, mp.log_pos, mp.sqrt_nonneg, mp.power_pos,
    mp.loggamma_pos, mp.gamma_pos, mp.rgamma_pos, gt_iff, gamma_gompertz.pdf, gamma_gompertz.logpdf, gamma_gompertz.cdf, gamma_gompertz.sf, gamma_gompertz.invcdf, gamma_gompertz.invsf, common.validateP, gamma_gompertz.validateParams, hc.not_ge, hc.ne', hc, hb.not_ge, hb.ne', hb, hs.not_ge, hs.ne', hs, fun_.pow1pm1, fun_.xlog1py]

theorem burr12_nan {c d s : ℝ} (hc : 0 < c) (hd : 0 < d) (hs : 0 < s) :
    NanToNan (burr12.pdf · (fin c) (fin d) (fin s)) ∧
    NanToNan (burr12.logpdf · (fin c) (fin d) (fin s)) ∧
    NanToNan (burr12.cdf · (fin c) (fin d) (fin s)) ∧
    NanToNan (burr12.sf · (fin c) (fin d) (fin s)) ∧
    NanToNan (burr12.logcdf · (fin c) (fin d) (fin s)) ∧
    NanToNan (burr12.logsf · (fin c) (fin d) (fin s)) ∧
    NanToNan (burr12.invcdf · (fin c) (fin d) (fin s)) ∧
    NanToNan (burr12.invsf · (fin c) (fin d) (fin s)) := by
  simp (disch := first | positivity | assumption) [NanToNan, fin_div, nan_div_fin, mp.log_pos, mp.sqrt_nonneg, mp.power_pos,
    mp.loggamma_pos, mp.gamma_pos, mp.rgamma_pos, gt_iff, burr12.pdf, burr12.logpdf, burr12.cdf, burr12.sf, burr12.logcdf, burr12.logsf, burr12.invcdf, burr12.invsf, common.validateP, burr12.validateParams, hc.not_ge, hc.ne', hc, hd.not_ge, hd.ne', hd, hs.not_ge, hs.ne', hs]

theorem loglogistic_nan {b s : ℝ} (hb : 0 < b) (hs : 0 < s) :
    NanToNan (loglogistic.pdf · (fin b) (fin s)) ∧
    NanToNan (loglogistic.logpdf · (fin b) (fin s)) ∧
    NanToNan (loglogistic.cdf · (fin b) (fin s)) ∧
    NanToNan (loglogistic.sf · (fin b) (fin s)) ∧
    NanToNan (loglogistic.invcdf · (fin b) (fin s)) ∧
    NanToNan (loglogistic.invsf · (fin b) (fin s)) := by
  simp (disch := first | positivity | assumption) [NanToNan, fin_div, nan_div_fin, mp.log_pos, mp.sqrt_nonneg, mp.power_pos,
    mp.loggamma_pos, mp.gamma_pos, mp.rgamma_pos, gt_iff, loglogistic.pdf, loglogistic.logpdf, loglogistic.cdf, loglogistic.sf, loglogistic.invcdf, loglogistic.invsf, common.validateMomentN, common.validateP, loglogistic.validateParams, hb.not_ge, hb.ne', hb, hs.not_ge, hs.ne', hs]

theorem exponweib_nan {a c s : ℝ} (ha : 0 < a) (hc : 0 < c) (hs : 0 < s) :
    NanToNan (exponweib.pdf · (fin a) (fin c) (fin s)) ∧
    NanToNan (exponweib.logpdf · (fin a) (fin c) (fin s)) ∧
    NanToNan (exponweib.cdf · (fin a) (fin c) (fin s)) ∧
    NanToNan (exponweib.sf · (fin a) (fin c) (fin s)) ∧
    NanToNan (exponweib.invcdf · (fin a) (fin c) (fin s)) ∧
    NanToNan (exponweib.invsf · (fin a) (fin c) (fin s)) := by
  simp (disch := first | positivity | assumption) [NanToNan, fin_div, nan_div_fin, mp.log_pos, mp.sqrt_nonneg, mp.power_pos,
    mp.loggamma_pos, mp.gamma_pos, mp.rgamma_pos, gt_iff, exponweib.pdf, exponweib.logpdf, exponweib.cdf, exponweib.sf, exponweib.invcdf, exponweib.invsf, exponweib.aCoeff, exponweib.term, common.validateP, exponweib.validateParams, ha.not_ge, ha.ne', ha, hc.not_ge, hc.ne', hc, hs.not_ge, hs.ne', hs]

theorem genexpon_nan {a b c m s : ℝ} (ha : 0 < a) (hb : 0 < b) (hc : 0 < c) (hs : 0 < s) :
    NanToNan (genexpon.pdf · (fin a) (fin b) (fin c) (fin m) (fin s)) ∧
    NanToNan (genexpon.logpdf · (fin a) (fin b) (fin c) (fin m) (fin s)) ∧
    NanToNan (genexpon.cdf · (fin a) (fin b) (fin c) (fin m) (fin s)) ∧
    NanToNan (genexpon.sf · (fin a) (fin b) (fin c) (fin m) (fin s)) := by
  simp (disch := first | positivity | assumption) [NanToNan, fin_div, nan_div_fin, mp.log_pos, mp.sqrt_nonneg, mp.power_pos,
    mp.loggamma_pos, mp.gamma_pos, mp.rgamma_pos, gt_iff, genexpon.pdf, genexpon.logpdf, genexpon.cdf, genexpon.sf, common.validateP, genexpon.validateParams, genexpon.validateXParams, ha.not_ge, ha.ne', ha, hb.not_ge, hb.ne', hb, hc.not_ge, hc.ne', hc, hs.not_ge, hs.ne', hs]

theorem power_normal_nan {c m s : ℝ} (hc : 0 < c) (hs : 0 < s) :
    NanToNan (power_normal.pdf · (fin c) (fin m) (fin s)) ∧
    NanToNan (power_normal.logpdf · (fin c) (fin m) (fin s)) ∧
    NanToNan (power_normal.cdf · (fin c) (fin m) (fin s)) ∧
    NanToNan (power_normal.sf · (fin c) (fin m) (fin s)) := by
  simp (disch := first | positivity | assumption) [NanToNan, fin_div, nan_div_fin, mp.log_pos, mp.sqrt_nonneg, mp.power_pos,
    mp.loggamma_pos, mp.gamma_pos, mp.rgamma_pos, gt_iff, power_normal.pdf, power_normal.logpdf, power_normal.cdf, power_normal.sf, power_normal.validate, common.validateP, hc.not_ge, hc.ne', hc, hs.not_ge, hs.ne', hs, normal.logpdf, common.validateLocScale, (zero_lt_one' ℝ).not_ge]

theorem benini_nan {a b s : ℝ} (ha : 0 < a) (hb : 0 < b) (hs : 0 < s) :
    NanToNan (benini.pdf · (fin a) (fin b) (fin s)) ∧
    NanToNan (benini.logpdf · (fin a) (fin b) (fin s)) ∧
    NanToNan (benini.cdf · (fin a) (fin b) (fin s)) ∧
    NanToNan (benini.sf · (fin a) (fin b) (fin s)) ∧
    NanToNan (benini.invcdf · (fin a) (fin b) (fin s)) ∧
    NanToNan (benini.invsf · (fin a) (fin b) (fin s)) := by
  simp (disch := first | positivity | assumption) [NanToNan, fin_div, nan_div_fin, mp.log_pos, mp.sqrt_nonneg, mp.power_pos,
    mp.loggamma_pos, mp.gamma_pos, mp.rgamma_pos, gt_iff, benini.pdf, benini.logpdf, benini.cdf, benini.sf, benini.invcdf, benini.invsf, benini.validatePositive, benini.hNeg1, common.validateP, benini.validateParams, ha.not_ge, ha.ne', ha, hb.not_ge, hb.ne', hb, hs.not_ge, hs.ne', hs, benini.median]

theorem levy_nan {m s : ℝ} (hs : 0 < s) :
    NanToNan (levy.pdf · (fin m) (fin s)) ∧
    NanToNan (levy.logpdf · (fin m) (fin s)) ∧
    NanToNan (levy.cdf · (fin m) (fin s)) ∧
    NanToNan (levy.sf · (fin m) (fin s)) := by
  simp (disch := first | positivity | assumption) [NanToNan, fin_div, nan_div_fin, mp.log_pos, mp.sqrt_nonneg, mp.power_pos,
    mp.loggamma_pos, mp.gamma_pos, mp.rgamma_pos, gt_iff, levy.pdf, levy.logpdf, levy.cdf, levy.sf, levy.erfcinv, common.validateLocScale, common.validateP, hs.not_ge, hs.ne', hs]

theorem maxwell_nan {m s : ℝ} (hs : 0 < s) :
    NanToNan (maxwell.pdf · (fin m) (fin s)) ∧
    NanToNan (maxwell.logpdf · (fin m) (fin s)) := by
  simp (disch := first | positivity | assumption) [NanToNan, fin_div, nan_div_fin, mp.log_pos, mp.sqrt_nonneg, mp.power_pos,
    mp.loggamma_pos, mp.gamma_pos, mp.rgamma_pos, gt_iff, maxwell.pdf, maxwell.logpdf, common.validateP, maxwell.validateParams, hs.not_ge, hs.ne', hs]

theorem benktander2_nan {a b : ℝ} (ha : 0 < a) (hb : 0 < b) (hb1 : b ≤ 1) :
    NanToNan (benktander2.pdf · (fin a) (fin b)) ∧
    NanToNan (benktander2.logpdf · (fin a) (fin b)) ∧
    NanToNan (benktander2.cdf · (fin a) (fin b)) ∧
    NanToNan (benktander2.sf · (fin a) (fin b)) := by
  simp (disch := first | positivity | assumption) [NanToNan, fin_div, nan_div_fin, mp.log_pos, mp.sqrt_nonneg, mp.power_pos,
    mp.loggamma_pos, mp.gamma_pos, mp.rgamma_pos, gt_iff, benktander2.pdf, benktander2.logpdf, benktander2.cdf, benktander2.sf, benktander2.solve, benktander2.validateAB, common.validateP, common.validateXBounds, ha.not_ge, ha.ne', ha, hb.not_ge, hb.ne', hb, hb1.not_gt, hb1]

theorem folded_normal_nan {m s : ℝ} (hs : 0 < s) :
    NanToNan (folded_normal.pdf · (fin m) (fin s)) ∧
    NanToNan (folded_normal.logpdf · (fin m) (fin s)) ∧
    NanToNan (folded_normal.cdf · (fin m) (fin s)) ∧
    NanToNan (folded_normal.sf · (fin m) (fin s)) := by
  simp (disch := first | positivity | assumption) [NanToNan, fin_div, nan_div_fin, mp.log_pos, mp.sqrt_nonneg, mp.power_pos,
    mp.loggamma_pos, mp.gamma_pos, mp.rgamma_pos, gt_iff, folded_normal.pdf, folded_normal.logpdf, folded_normal.cdf, folded_normal.sf, folded_normal.validateSigma, hs.not_ge, hs.ne', hs, normal.logpdf, fun_.logsumexp, py.max, common.validateLocScale, mp.fsum]

theorem slash_nan  :
    NanToNan (slash.pdf ·) ∧
    NanToNan (slash.logpdf ·) ∧
    NanToNan (slash.cdf ·) ∧
    NanToNan (slash.sf ·) := by
  simp (disch := first | positivity | assumption) [NanToNan, fin_div, nan_div_fin, mp.log_pos, mp.sqrt_nonneg, mp.power_pos,
    mp.loggamma_pos, mp.gamma_pos, mp.rgamma_pos, gt_iff, slash.pdf, slash.logpdf, slash.cdf, slash.sf, slash.delta, common.validateP]

theorem cosine_nan  :
    NanToNan (cosine.pdf ·) ∧
    NanToNan (cosine.logpdf ·) ∧
    NanToNan (cosine.cdf ·) ∧
    NanToNan (cosine.sf ·) := by
  simp (disch := first | positivity | assumption) [NanToNan, fin_div, nan_div_fin, mp.log_pos, mp.sqrt_nonneg, mp.power_pos,
    mp.loggamma_pos, mp.gamma_pos, mp.rgamma_pos, gt_iff, cosine.pdf, cosine.logpdf, cosine.cdf, cosine.sf, cosine.cbrt, cosine.start, common.validateP]

theorem rel_breitwigner_nan {r s : ℝ} (hr : 0 < r) (hs : 0 < s) :
    NanToNan (rel_breitwigner.pdf · (fin r) (fin s)) ∧
    NanToNan (rel_breitwigner.logpdf · (fin r) (fin s)) := by
  simp (disch := first | positivity | assumption) [NanToNan, fin_div, nan_div_fin, mp.log_pos, mp.sqrt_nonneg, mp.power_pos,
    mp.loggamma_pos, mp.gamma_pos, mp.rgamma_pos, gt_iff, rel_breitwigner.pdf, rel_breitwigner.logpdf, rel_breitwigner.k, common.validateMomentN, common.validateP, rel_breitwigner.validateParams, hr.not_ge, hr.ne', hr, hs.not_ge, hs.ne', hs]

theorem beta_nan {a b : ℝ} (ha : 0 < a) (hb : 0 < b) :
    NanToNan (beta.pdf · (fin a) (fin b)) ∧
    NanToNan (beta.logpdf · (fin a) (fin b)) := by
  simp (disch := first | positivity | assumption) [NanToNan, fin_div, nan_div_fin, mp.log_pos, mp.sqrt_nonneg, mp.power_pos,
    mp.loggamma_pos, mp.gamma_pos, mp.rgamma_pos, gt_iff, beta.pdf, beta.logpdf, beta.validateAB, common.validateMomentN, common.validateP, ha.not_ge, ha.ne', ha, hb.not_ge, hb.ne', hb, mp.beta, fun_.logbeta_pos, fun_.xlogy, fun_.xlog1py, nan_div_fin (betaFn_pos ha hb).ne']

theorem gamma_nan {k s : ℝ} (hk : 0 < k) (hs : 0 < s) :
    NanToNan (gamma.pdf · (fin k) (fin s)) ∧
    NanToNan (gamma.logpdf · (fin k) (fin s)) := by
  simp (disch := first | positivity | assumption) [NanToNan, fin_div, nan_div_fin, mp.log_pos, mp.sqrt_nonneg, mp.power_pos,
    mp.loggamma_pos, mp.gamma_pos, mp.rgamma_pos, gt_iff, gamma.pdf, gamma.logpdf, common.validateMomentN, common.validateP, gamma.validateParams, hk.not_ge, hk.ne', hk, hs.not_ge, hs.ne', hs]

theorem chi_nan {k : ℝ} (hk : 0 < k) :
    NanToNan (chi.pdf · (fin k)) ∧
    NanToNan (chi.logpdf · (fin k)) := by
  simp (disch := first | positivity | assumption) [NanToNan, fin_div, nan_div_fin, mp.log_pos, mp.sqrt_nonneg, mp.power_pos,
    mp.loggamma_pos, mp.gamma_pos, mp.rgamma_pos, gt_iff, chi.pdf, chi.logpdf, chi.validateK, common.validateMomentN, hk.not_ge, hk.ne', hk]

theorem chi2_nan {k : ℝ} (hk : 0 < k) :
    NanToNan (chi2.pdf · (fin k)) ∧
    NanToNan (chi2.logpdf · (fin k)) := by
  simp (disch := first | positivity | assumption) [NanToNan, fin_div, nan_div_fin, mp.log_pos, mp.sqrt_nonneg, mp.power_pos,
    mp.loggamma_pos, mp.gamma_pos, mp.rgamma_pos, gt_iff, chi2.pdf, chi2.logpdf, chi2.validateK, common.validateMomentN, hk.not_ge, hk.ne', hk]

theorem invgamma_nan {a m s : ℝ} (ha : 0 < a) (hs : 0 < s) :
    NanToNan (invgamma.pdf · (fin a) (fin m) (fin s)) ∧
    NanToNan (invgamma.logpdf · (fin a) (fin m) (fin s)) := by
  simp (disch := first | positivity | assumption) [NanToNan, fin_div, nan_div_fin, mp.log_pos, mp.sqrt_nonneg, mp.power_pos,
    mp.loggamma_pos, mp.gamma_pos, mp.rgamma_pos, gt_iff, invgamma.pdf, invgamma.logpdf, invgamma.cdfStep, invgamma.sfStep, common.validateMomentN, common.validateP, invgamma.validateParams, ha.not_ge, ha.ne', ha, hs.not_ge, hs.ne', hs]

theorem invchi2_nan {n : ℝ} (hn : 0 < n) :
    NanToNan (invchi2.pdf · (fin n)) ∧
    NanToNan (invchi2.logpdf · (fin n)) := by
  simp (disch := first | positivity | assumption) [NanToNan, fin_div, nan_div_fin, mp.log_pos, mp.sqrt_nonneg, mp.power_pos,
    mp.loggamma_pos, mp.gamma_pos, mp.rgamma_pos, gt_iff, invchi2.pdf, invchi2.logpdf, invchi2.validateNu, hn.not_ge, hn.ne', hn]

theorem betaprime_nan {a b s : ℝ} (ha : 0 < a) (hb : 0 < b) (hs : 0 < s) :
    NanToNan (betaprime.pdf · (fin a) (fin b) (fin s)) ∧
    NanToNan (betaprime.logpdf · (fin a) (fin b) (fin s)) := by
  simp (disch := first | positivity | assumption) [NanToNan, fin_div, nan_div_fin, mp.log_pos, mp.sqrt_nonneg, mp.power_pos,
    mp.loggamma_pos, mp.gamma_pos, mp.rgamma_pos, gt_iff, betaprime.pdf, betaprime.logpdf, common.validateMomentN, common.validateP, betaprime.validateParams, ha.not_ge, ha.ne', ha, hb.not_ge, hb.ne', hb, hs.not_ge, hs.ne', hs, mp.beta, fun_.logbeta_pos, fun_.xlogy, fun_.xlog1py, nan_div_fin (betaFn_pos ha hb).ne']

theorem fdist_nan {a b : ℝ} (ha : 0 < a) (hb : 0 < b) :
    NanToNan (fdist.pdf · (fin a) (fin b)) ∧
    NanToNan (fdist.logpdf · (fin a) (fin b)) := by
  simp (disch := first | positivity | assumption) [NanToNan, fin_div, nan_div_fin, mp.log_pos, mp.sqrt_nonneg, mp.power_pos,
    mp.loggamma_pos, mp.gamma_pos, mp.rgamma_pos, gt_iff, fdist.pdf, fdist.logpdf, common.validateP, fdist.validateParams, ha.not_ge, ha.ne', ha, hb.not_ge, hb.ne', hb, mp.beta, fun_.logbeta_pos, fun_.xlogy, fun_.xlog1py, nan_div_fin (betaFn_pos (half_pos ha) (half_pos hb)).ne']

theorem nakagami_nan {n m s : ℝ} (hn : 0 < n) (hs : 0 < s) :
    NanToNan (nakagami.pdf · (fin n) (fin m) (fin s)) ∧
    NanToNan (nakagami.logpdf · (fin n) (fin m) (fin s)) := by
  simp (disch := first | positivity | assumption) [NanToNan, fin_div, nan_div_fin, mp.log_pos, mp.sqrt_nonneg, mp.power_pos,
    mp.loggamma_pos, mp.gamma_pos, mp.rgamma_pos, gt_iff, nakagami.pdf, nakagami.logpdf, common.validateP, nakagami.validateParams, hn.not_ge, hn.ne', hn, hs.not_ge, hs.ne', hs]

theorem studentt_nan {v : ℝ} (hv : 0 < v) :
    NanToNan (studentt.pdf · (fin v)) ∧
    NanToNan (studentt.logpdf · (fin v)) := by
  simp (disch := first | positivity | assumption) [NanToNan, fin_div, nan_div_fin, mp.log_pos, mp.sqrt_nonneg, mp.power_pos,
    mp.loggamma_pos, mp.gamma_pos, mp.rgamma_pos, gt_iff, studentt.pdf, studentt.logpdf, studentt.validateDf, common.validateP, hv.not_ge, hv.ne', hv]

theorem loggamma_nan {k s : ℝ} (hk : 0 < k) (hs : 0 < s) :
    NanToNan (loggamma.pdf · (fin k) (fin s)) ∧
    NanToNan (loggamma.logpdf · (fin k) (fin s)) := by
  simp (disch := first | positivity | assumption) [NanToNan, fin_div, nan_div_fin, mp.log_pos, mp.sqrt_nonneg, mp.power_pos,
    mp.loggamma_pos, mp.gamma_pos, mp.rgamma_pos, gt_iff, loggamma.pdf, loggamma.logpdf, common.validateP, loggamma.validateParams, hk.not_ge, hk.ne', hk, hs.not_ge, hs.ne', hs]

theorem invgauss_nan {u m s : ℝ} (hu : 0 < u) (hs : 0 < s) :
    NanToNan (invgauss.pdf · (fin u) (fin m) (fin s)) ∧
    NanToNan (invgauss.logpdf · (fin u) (fin m) (fin s)) ∧
    NanToNan (invgauss.cdf · (fin u) (fin m) (fin s)) ∧
    NanToNan (invgauss.sf · (fin u) (fin m) (fin s)) ∧
    NanToNan (invgauss.logcdf · (fin u) (fin m) (fin s)) ∧
    NanToNan (invgauss.logsf · (fin u) (fin m) (fin s)) := by
  simp (disch := first | positivity | assumption) [NanToNan, fin_div, nan_div_fin, mp.log_pos, mp.sqrt_nonneg, mp.power_pos,
    mp.loggamma_pos, mp.gamma_pos, mp.rgamma_pos, gt_iff, invgauss.pdf, invgauss.logpdf, invgauss.cdf, invgauss.sf, invgauss.logcdf, invgauss.logsf, invgauss.cdfStep, invgauss.sfStep, common.validateMomentN, common.validateP, invgauss.validateParams, hu.not_ge, hu.ne', hu, hs.not_ge, hs.ne', hs]

theorem vonmises_nan {k m : ℝ}  :
    NanToNan (vonmises.pdf · (fin k) (fin m)) ∧
    NanToNan (vonmises.logpdf · (fin k) (fin m)) := by
  have h0 := vonmises.i0_pos k
  have h1 := vonmises.den_pos k
  simp (disch := first | positivity | assumption) [NanToNan, fin_div, nan_div_fin, mp.log_pos, mp.sqrt_nonneg, mp.power_pos,
    mp.loggamma_pos, mp.gamma_pos, mp.rgamma_pos, gt_iff, h1.ne', vonmises.pdf, vonmises.logpdf]

/-- C76 fails: a nan passes both comparisons of `uniform.pdf`, which returns the density of a point
inside the support. -/
theorem uniform_pdf_nan {a b : ℝ} (h : a < b) : uniform.pdf nan (fin a) (fin b) = .ok (fin (1 / (b - a))) := by
  have := (sub_pos.2 h).ne'
  simp (disch := assumption) [uniform.pdf, uniform.validate, h.not_ge, fin_div]

/-- C76 fails for `uniform.logpdf` in the same way. -/
theorem uniform_logpdf_nan {a b : ℝ} (h : a < b) : uniform.logpdf nan (fin a) (fin b) = .ok (fin (-Real.log (b - a))) := by
  have := sub_pos.2 h
  simp (disch := assumption) [uniform.logpdf, uniform.validate, h.not_ge, mp.log_pos]

example : ¬ NanToNan (uniform.pdf · (fin 0) (fin 1)) := by
  rw [NanToNan, uniform_pdf_nan one_pos]; simp

example : NanToNan (normal.cdf · (fin 0) (fin 1)) := (normal_nan one_pos).2.2.1

end Mpsci.NanArgs
