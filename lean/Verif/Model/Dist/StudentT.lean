import Verif.Model.Common
import Verif.Model.Common.Bracket
import Verif.Base.Hyp2f1
import Verif.Base.GammaInc
import Verif.Base.Digamma
import Verif.Base.Special
import Verif.Base.Const

/-! Model of `mpsci/distributions/studentt.py`. -/

namespace Mpsci.studentt

open Classical Num common

/-- `studentt.py` 14-18. -/
noncomputable def validateDf (df : Num) : M Num := if df ≤ 0 then .error .valueError else .ok df

/-- `studentt.py` 22-33. -/
noncomputable def logpdf (x df : Num) : M Num := do
  let df ← validateDf df
  let h ← (df + 1) /. 2
  return (← mp.loggamma h) - (← (← mp.log (df * mp.pi)) /. 2) - (← mp.loggamma (← df /. 2)) -
    h * (← mp.log1p (← mp.ipow x 2 /. df))

/-- `studentt.py` 36-41. -/
noncomputable def pdf (x df : Num) : M Num := do
  let df ← validateDf df
  return mp.exp (← logpdf x df)

/-- `studentt.py` 45-59. -/
noncomputable def cdf (x df : Num) : M Num := do
  let df ← validateDf df
  if x =. ninf then return 0
  if x =. pinf then return 1
  let half ← 1 /. 2
  let h ← (df + 1) /. 2
  let p1 := x * (← mp.gamma h)
  let p2 ← mp.hyp2f1 half h (3 * half) (← (-(mp.ipow x 2)) /. df)
  return half + (← (← (p1 * p2) /. (← mp.sqrt (mp.pi * df))) /. (← mp.gamma (← df /. 2)))

/-- `studentt.py` 63-77. -/
noncomputable def sf (x df : Num) : M Num := do
  let df ← validateDf df
  if x =. ninf then return 1
  if x =. pinf then return 0
  let half ← 1 /. 2
  let h ← (df + 1) /. 2
  let p1 := x * (← mp.gamma h)
  let p2 ← mp.hyp2f1 half h (3 * half) (← (-(mp.ipow x 2)) /. df)
  return half - (← (← (p1 * p2) /. (← mp.sqrt (mp.pi * df))) /. (← mp.gamma (← df /. 2)))

/-- `studentt.py` 81-118. `findroot` is `mp.findroot` with `solver='anderson'`. -/
noncomputable def invcdf (findroot : (Num → M Num) → Num → Num → M Num) (fuel : ℕ) (p df : Num) : M Num := do
  let df ← validateDf df
  let p ← validateP p
  if p =. 0 then return ninf
  if p =. 1 then return pinf
  let p0 := if p > fin (1 / 2) then 1 - p else p
  let (x0, x1) ← findBracket fuel (fun x => cdf x df) p0 ninf pinf
  if x0 =. x1 then return x0
  let x ← findroot (fun x => do return (← cdf x df) - p0) x0 x1
  return if p > fin (1 / 2) then -x else x

/-- `studentt.py` 121-135. -/
noncomputable def invsf (findroot : (Num → M Num) → Num → Num → M Num) (fuel : ℕ) (p df : Num) : M Num := do
  let df ← validateDf df
  let p ← validateP p
  return -(← invcdf findroot fuel p df)

/-- `studentt.py` 138-144. -/
noncomputable def support (df : Num) : M (Num × Num) := do
  let _ ← validateDf df
  return (ninf, pinf)

/-- `studentt.py` 147-154. -/
noncomputable def mean (df : Num) : M Num := do
  let _ ← validateDf df
  return 0

/-- `studentt.py` 157-164. -/
noncomputable def mode (df : Num) : M Num := do
  let _ ← validateDf df
  return 0

/-- `studentt.py` 167-176. -/
noncomputable def entropy (df : Num) : M Num := do
  let df ← validateDf df
  let h ← df /. 2
  let h1 ← (df + 1) /. 2
  return h1 * ((← mp.digamma h1) - (← mp.digamma h)) + (← mp.log ((← mp.sqrt df) * (← mp.beta h (fin (1 / 2)))))

end Mpsci.studentt
