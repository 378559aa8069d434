import Verif.Model.Fit.Gamma
import Verif.Model.Dist.Normal

/-! Model of the standard errors and confidence intervals of `mpsci/distributions/gamma.py`. -/

namespace Mpsci.gamma

open Classical Num

/-- `gamma.py` 404-422 `_nll_invhess_diag` -/
noncomputable def nllInvhessDiag (x : List Num) (k scale : Num) : M (Num × Num) := do
  let (k, scale) ← validateParams k scale
  let N := stats.len x
  let sumx := mp.fsum x
  let dk2 := -N * (← mp.psi 1 k)
  let dkdscale ← (-N) /. scale
  let dscale2 := (← (-2) * sumx /. mp.ipow scale 3) + (← N * k /. mp.ipow scale 2)
  let det := dk2 * dscale2 - mp.ipow dkdscale 2
  return (← (-dscale2) /. det, ← (-dk2) /. det)

/-- `gamma.py` 376-385 `_mle_se` -/
noncomputable def mleSe (x : List Num) (k scale : Num) : M (Num × Num) := do
  let (k, scale) ← validateParams k scale
  let invhessDiag ← nllInvhessDiag x k scale
  return (← mp.sqrt invhessDiag.1, ← mp.sqrt invhessDiag.2)

/-- `gamma.py` 388-401 `_mle_ci` -/
noncomputable def mleCi (x : List Num) (k scale alpha : Num) : M ((Num × Num) × (Num × Num)) := do
  let (k, scale) ← validateParams k scale
  let (kse, scalese) ← mleSe x k scale
  let w ← normal.invcdf (← alpha /. 2)
  return ((k + w * kse, k - w * kse), (scale + w * scalese, scale - w * scalese))

end Mpsci.gamma
