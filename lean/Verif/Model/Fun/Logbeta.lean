import Verif.Base.PyNum

/-! Model of `mpsci/fun/_logbeta.py`. -/

namespace Mpsci.fun_

open Classical Num

/-- `_logbeta.py` 10-36 `logbeta` -/
noncomputable def logbeta (x y : Num) : M Num := do
  return (← mp.loggamma x) + (← mp.loggamma y) - (← mp.loggamma (mp.fsum [x, y]))

/-- `_logbeta.py` 53-76 `multivariate_logbeta` -/
noncomputable def multivariateLogbeta (alpha : List Num) : M Num := do
  let terms ← alpha.mapM mp.loggamma
  return mp.fsum (terms ++ [-(← mp.loggamma (mp.fsum alpha))])

end Mpsci.fun_
