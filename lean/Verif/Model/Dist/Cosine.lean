import Verif.Model.Common

/-! Model of `mpsci/distributions/cosine.py`. `mp.findroot(f, x0, df, df2, solver='mnewton')` is a parameter
`findroot`, called with `f` and `x0`. -/

namespace Mpsci.cosine

open Classical Num common

/-- `cosine.py` 19-33. -/
noncomputable def pdf (x : Num) : M Num := do
  if x ≤ -mp.pi ∨ mp.pi ≤ x then return 0 else (mp.cos x + 1) /. (2 * mp.pi)

/-- `cosine.py` 49-62. -/
noncomputable def logpdf (x : Num) : M Num := do
  if x ≤ -mp.pi ∨ mp.pi ≤ x then return ninf
  else return (← mp.log1p (mp.cos x)) - (← mp.log (2 * mp.pi))

/-- `cosine.py` 72-85. -/
noncomputable def cdf (x : Num) : M Num := do
  if x ≤ -mp.pi then return 0
  else if mp.pi ≤ x then return 1
  else return fin (1 / 2) + (← (x + mp.sin x) /. (2 * mp.pi))

/-- `cosine.py` 103-108. The double precision coefficients are taken as the decimals written. -/
noncomputable def p2 (t : Num) : Num :=
  fin 0.5 + t * (fin (-0.06532856457583547) + t * (fin 0.0020893844847965047 + t * fin (-1.0233693819385904e-05)))

/-- `cosine.py` 111-116. -/
noncomputable def q2 (t : Num) : Num :=
  fin 1.0 + t * (fin (-0.15149046248500425) + t * (fin 0.006293153604697265 + t * fin (-6.042645518776793e-05)))

/-- `cosine.py` 119-139. -/
noncomputable def polyApprox (s : Num) : Num :=
  let s2 := mp.ipow s 2
  s * (1 + s2 * (fin (1 / 60) + s2 * (fin (1 / 1400) + s2 * (fin (1 / 25200) + s2 * fin (43 / 17248000)))))

/-- `mp.cbrt`, for the nonnegative arguments that occur. -/
noncomputable def cbrt (x : Num) : M Num := mp.power x (fin (1 / 3))

/-- `cosine.py` 154-161: the starting point of the iteration. The bounds 0.094 and 0.906 are double precision
constants, taken as the decimals written. -/
noncomputable def start (p : Num) : M Num := do
  if p < fin 0.094 then
    return polyApprox (← cbrt (12 * mp.pi * p)) - mp.pi
  else if fin 0.906 < p then
    return mp.pi - polyApprox (← cbrt (12 * mp.pi * (1 - p)))
  else
    let y := mp.pi * (2 * p - 1)
    let y2 := mp.ipow y 2
    (y * p2 y2) /. q2 y2

/-- `cosine.py` 143-169. -/
noncomputable def invcdf (findroot : (Num → M Num) → Num → M Num) (p : Num) : M Num := do
  let p ← validateP p
  if p =. 0 then
    return -mp.pi
  else if p =. 1 then
    return mp.pi
  else
    let x ← start p
    findroot (fun t => do return (← cdf t) - p) x

/-- `cosine.py` 172-176. -/
noncomputable def sf (x : Num) : M Num := cdf (-x)

/-- `cosine.py` 179-183. -/
noncomputable def invsf (findroot : (Num → M Num) → Num → M Num) (p : Num) : M Num := do
  return -(← invcdf findroot p)

/-- `cosine.py` 186-190. -/
noncomputable def support : Num × Num := (-mp.pi, mp.pi)

/-- `cosine.py` 193-199. -/
noncomputable def mean : M Num := return 0

/-- `cosine.py` 202-208. -/
noncomputable def mode : M Num := return 0

/-- `cosine.py` 212-218. -/
noncomputable def var : M Num := do return (← mp.ipow mp.pi 2 /. 3) - 2

/-- `cosine.py` 221-227. -/
noncomputable def skewness : M Num := return 0

/-- `cosine.py` 231-238. -/
noncomputable def kurtosis : M Num := do
  let pi2 := mp.ipow mp.pi 2
  ((← (90 - mp.ipow pi2 2) /. mp.ipow (pi2 - 6) 2) * 6) /. 5

end Mpsci.cosine
