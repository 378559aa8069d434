import Verif.Model.Common
import Verif.Base.Special

/-! Model of `mpsci/distributions/burr12.py` (`nll` and `mle`, lines 177-390, are in `Model/Fit/Positive.lean`). -/

namespace Mpsci.burr12

open Classical Num common

/-- `burr12.py` 19-26. -/
noncomputable def validateParams (c d scale : Num) : M (Num × Num × Num) :=
  if c ≤ 0 then .error .valueError
  else if d ≤ 0 then .error .valueError
  else if scale ≤ 0 then .error .valueError
  else .ok (c, d, scale)

/-- `burr12.py` 29-39. -/
noncomputable def pdf (x c d scale : Num) : M Num := do
  let (c, d, scale) ← validateParams c d scale
  if x ≤ 0 then
    return 0
  else
    let z ← x /. scale
    (← c * d * (← mp.power z (c - 1)) /. scale) /. (← mp.power (1 + (← mp.power z c)) (d + 1))

/-- `burr12.py` 42-52. -/
noncomputable def logpdf (x c d scale : Num) : M Num := do
  let (c, d, scale) ← validateParams c d scale
  if x ≤ 0 then
    return ninf
  else
    return (← mp.log c) + (← mp.log d) + (c - 1) * (← mp.log x) - c * (← mp.log scale)
      - (d + 1) * (← mp.log1p (← mp.power (← x /. scale) c))

/-- `burr12.py` 90-99. -/
noncomputable def sf (x c d scale : Num) : M Num := do
  let (c, d, scale) ← validateParams c d scale
  if x ≤ 0 then
    return 1
  else
    mp.power (1 + (← mp.power (← x /. scale) c)) (-d)

/-- `burr12.py` 55-65. -/
noncomputable def cdf (x c d scale : Num) : M Num := do
  let (c, d, scale) ← validateParams c d scale
  if x ≤ 0 then
    return 0
  else
    return 1 - (← sf x c d scale)

/-- `burr12.py` 68-75. -/
noncomputable def invcdf (p c d scale : Num) : M Num := do
  let (c, d, scale) ← validateParams c d scale
  let p ← validateP p
  return scale * (← mp.power (← mp.powm1 (1 - p) (← (-1) /. d)) (← 1 /. c))

/-- `burr12.py` 78-87. -/
noncomputable def logcdf (x c d scale : Num) : M Num := do
  let (c, d, scale) ← validateParams c d scale
  if x ≤ 0 then
    return ninf
  else
    mp.log1p (-(← sf x c d scale))

/-- `burr12.py` 102-109. -/
noncomputable def invsf (p c d scale : Num) : M Num := do
  let (c, d, scale) ← validateParams c d scale
  let p ← validateP p
  return scale * (← mp.power (← mp.powm1 p (← (-1) /. d)) (← 1 /. c))

/-- `burr12.py` 112-121. -/
noncomputable def logsf (x c d scale : Num) : M Num := do
  let (c, d, scale) ← validateParams c d scale
  if x ≤ 0 then
    return 0
  else
    return (-d) * (← mp.log1p (← mp.power (← x /. scale) c))

/-- `burr12.py` 124-129. -/
noncomputable def support (c d scale : Num) : M (Num × Num) := do
  let _ ← validateParams c d scale
  return (0, pinf)

/-- `burr12.py` 156-162. -/
noncomputable def median (c d scale : Num) : M Num := do
  let (c, d, scale) ← validateParams c d scale
  return scale * (← mp.power ((← mp.power 2 (← 1 /. d)) - 1) (← 1 /. c))

/-- `burr12.py` 165-173. -/
noncomputable def mode (c d scale : Num) : M Num := do
  let (c, d, scale) ← validateParams c d scale
  if c ≤ 1 then
    return 0
  else
    return scale * (← mp.power (← (c - 1) /. (d * c + 1)) (← 1 /. c))

/-- `burr12.py` 132-140. -/
noncomputable def mean (c d scale : Num) : M Num := do
  let (c, d, scale) ← validateParams c d scale
  if c * d ≤ 1 then
    return nan
  return d * (← mp.beta (d - (← 1 /. c)) (1 + (← 1 /. c))) * scale

/-- `burr12.py` 143-153. -/
noncomputable def var (c d scale : Num) : M Num := do
  let (c, d, scale) ← validateParams c d scale
  if c * d ≤ 2 then
    return nan
  let mu1 ← mean c d 1
  let mu2 := d * (← mp.beta (d - (← 2 /. c)) (1 + (← 2 /. c)))
  return mp.ipow scale 2 * (-mp.ipow mu1 2 + mu2)

end Mpsci.burr12
