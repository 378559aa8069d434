import Verif.Base.Run
import Verif.Base.Special
import Verif.Base.Const
import Verif.Base.Discrete
import Verif.Model.Common

/-! Model of `mpsci/distributions/tukeylambda.py`.  `findroot` is `mp.findroot(f, [a, b], solver="anderson")` and `eps` is
`mp.eps` at the working precision (the changes of the working precision are not modelled). -/

namespace Mpsci.tukeylambda

open Classical Num common

/-- `tukeylambda.py` 21-24. -/
noncomputable def validateParams (lam loc scale : Num) : M (Num × Num × Num) := do
  let (loc, scale) ← validateLocScale loc scale
  return (lam, loc, scale)

/-- `tukeylambda.py` 164-167. -/
noncomputable def invStd (p lam : Num) : M Num := do
  if lam =. 0 then
    return (← mp.log p) - (← mp.log1p (-p))
  else
    ((← mp.power p lam) - mp.exp (lam * (← mp.log1p (-p)))) /. lam

/-- `tukeylambda.py` 150-168. -/
noncomputable def invcdf (p lam : Num) (loc : Num := 0) (scale : Num := 1) : M Num := do
  let p ← validateP p
  let (lam, loc, scale) ← validateParams lam loc scale
  if lam < 0 ∧ (p =. 0) then
    return ninf
  if lam < 0 ∧ (p =. 1) then
    return pinf
  let z ← invStd p lam
  return loc + scale * z

/-- `tukeylambda.py` 171-176. -/
noncomputable def invsf (p lam : Num) (loc : Num := 0) (scale : Num := 1) : M Num := do
  return -(← invcdf p lam (-loc) scale)

/-- `tukeylambda.py` 61-69: `lam < 0`, `z < 0`. -/
noncomputable def bracketNeg (z lam lamrecip : Num) : M (Num × Num) := do
  let pmax ← if z < (← (← mp.power 2 (-lam)) /. lam) then mp.power (lam * z) lamrecip else pure (fin (1 / 2))
  let pmin ← if z < -(← mp.power 2 (-lam - 1)) then pure 0 else do
    pure ((← 1 /. 2) + (← mp.power 2 lam) * z)
  return (pmin, pmax)

/-- `tukeylambda.py` 70-79: `lam < 0`, `z` not negative. -/
noncomputable def bracketPos (z lam : Num) : M (Num × Num) := do
  let pmin ← if z > (← (-(← mp.power 2 (-lam))) /. lam) then do
      pure (-(mp.expm1 (← (← mp.log (-lam * z)) /. lam)))
    else pure (fin (1 / 2))
  let pmax ← if z > (← mp.power 2 (-lam - 1)) then pure 1 else do
    pure ((← 1 /. 2) + (← mp.power 2 lam) * z)
  return (pmin, pmax)

/-- `tukeylambda.py` 55-83. -/
noncomputable def cdfSolverBracket (z lam : Num) : M (Num × Num) := do
  let lamrecip ← 1 /. lam
  if lam < 0 then
    if z < 0 then bracketNeg z lam lamrecip else bracketPos z lam
  else
    return (0, 1)

/-- `tukeylambda.py` 94: the condition of the loop. The third part of the state says that the loop was left by the
`return` in line 99. -/
noncomputable def refineCond (m delta : Num) (s : Num × Num × Prop) : M Prop := do
  if s.2.2 then return False
  return (← (s.2.1 - s.1) /. m) > delta

/-- `tukeylambda.py` 95-103: the body of the loop. -/
noncomputable def refineStep (z lam signMin : Num) (s : Num × Num × Prop) : M (Num × Num × Prop) := do
  let pmid ← (s.1 + s.2.1) /. 2
  let signMid := mp.sign ((← invcdf pmid lam) - z)
  if signMid =. 0 then
    return (pmid, pmid, True)
  if signMid =. signMin then
    return (pmid, s.2.1, False)
  else
    return (s.1, pmid, False)

/-- `tukeylambda.py` 86-104. -/
noncomputable def refineBracket (eps pmin pmax z lam : Num) : M (Num × Num) := do
  let m ← (pmin + pmax) /. 2
  let delta ← mp.sqrt eps
  let signMin := mp.sign ((← invcdf pmin lam) - z)
  let _signMax := mp.sign ((← invcdf pmax lam) - z)
  let s ← run fun fuel => loop (refineCond m delta) (refineStep z lam signMin) fuel (pmin, pmax, False)
  return (s.1, s.2.1)

/-- `tukeylambda.py` 131-137. -/
noncomputable def cdfSolve (findroot : (Num → M Num) → Num → Num → M Num) (eps z lam : Num) : M Num := do
  let (pmin, pmax) ← cdfSolverBracket z lam
  let (pmin, pmax) ← refineBracket eps pmin pmax z lam
  findroot (fun t => do return (← invcdf t lam) - z) pmin pmax

/-- `tukeylambda.py` 107-137. -/
noncomputable def cdf (findroot : (Num → M Num) → Num → Num → M Num) (eps x lam : Num) (loc : Num := 0) (scale : Num := 1) :
    M Num := do
  let (lam, loc, scale) ← validateParams lam loc scale
  let z ← (x - loc) /. scale
  if z =. 0 then
    return fin (1 / 2)
  if lam > 0 then
    let lamrecip ← 1 /. lam
    if z ≤ -lamrecip then
      return 0
    if z ≥ lamrecip then
      return 1
    cdfSolve findroot eps z lam
  else if lam =. 0 then
    1 /. (mp.exp (-z) + 1)
  else
    cdfSolve findroot eps z lam

/-- `tukeylambda.py` 140-147. -/
noncomputable def sf (findroot : (Num → M Num) → Num → Num → M Num) (eps x lam : Num) (loc : Num := 0) (scale : Num := 1) :
    M Num :=
  cdf findroot eps (-x) lam (-loc) scale

/-- `tukeylambda.py` 38-40. -/
noncomputable def pdfIn (findroot : (Num → M Num) → Num → Num → M Num) (eps z lam scale : Num) : M Num := do
  let c ← cdf findroot eps z lam
  let p ← 1 /. ((← mp.power c (lam - 1)) + mp.exp ((lam - 1) * (← mp.log1p (-c))))
  p /. scale

/-- `tukeylambda.py` 27-40. -/
noncomputable def pdf (findroot : (Num → M Num) → Num → Num → M Num) (eps x lam : Num) (loc : Num := 0) (scale : Num := 1) :
    M Num := do
  let (lam, loc, scale) ← validateParams lam loc scale
  let z ← (x - loc) /. scale
  if lam > 0 then
    let lamrecip ← 1 /. lam
    if z ≤ -lamrecip ∨ z ≥ lamrecip then
      return 0
    pdfIn findroot eps z lam scale
  else
    pdfIn findroot eps z lam scale

/-- `tukeylambda.py` 43-52. -/
noncomputable def logpdf (findroot : (Num → M Num) → Num → Num → M Num) (eps x lam : Num) (loc : Num := 0) (scale : Num := 1) :
    M Num := do
  let (lam, loc, scale) ← validateParams lam loc scale
  mp.log (← pdf findroot eps x lam loc scale)

/-- `tukeylambda.py` 179-188. -/
noncomputable def support (lam : Num) (loc : Num := 0) (scale : Num := 1) : M (Num × Num) := do
  let (lam, loc, scale) ← validateParams lam loc scale
  if lam ≤ 0 then
    return (ninf, pinf)
  else
    return (loc - (← scale /. lam), loc + (← scale /. lam))

/-- `tukeylambda.py` 191-201. -/
noncomputable def mean (lam : Num) (loc : Num := 0) (scale : Num := 1) : M Num := do
  let (lam, loc, _) ← validateParams lam loc scale
  if lam > fin (-1) then
    return loc
  return nan

/-- `tukeylambda.py` 204-219. -/
noncomputable def var (lam : Num) (loc : Num := 0) (scale : Num := 1) : M Num := do
  let (lam, _, scale) ← validateParams lam loc scale
  if lam ≤ fin (-(1 / 2)) then
    return nan
  if lam =. 0 then
    mp.ipow (scale * mp.pi) 2 /. 3
  else
    let g1 ← mp.gamma (lam + 1)
    let g2 ← mp.gamma (2 * lam + 2)
    let v0 := (← 2 /. mp.ipow lam 2) * ((← 1 /. (1 + 2 * lam)) - (← mp.ipow g1 2 /. g2))
    return mp.ipow scale 2 * v0

/-- `tukeylambda.py` 222-237. -/
noncomputable def standardNoncentralMoment (n : ℕ) (lam : Num) : M Num := do
  if n = 0 then
    return 1
  if n % 2 = 1 then
    return 0
  if lam * fin n ≤ fin (-1) then
    return nan
  let terms ← (List.range (n + 1)).mapM fun (k : ℕ) => do
    return fin ((-1) ^ k) * (← mp.binomial n k) * (← mp.beta (lam * fin k + 1) (fin ((n:ℝ) - k) * lam + 1))
  (mp.fsum terms) /. mp.ipow lam n

/-- `tukeylambda.py` 240-254. `mp.power` with an integer exponent is the integer power. -/
noncomputable def noncentralMoment (n : ℤ) (lam : Num) (loc : Num := 0) (scale : Num := 1) : M Num := do
  let n ← validateMomentN n
  let (lam, loc, scale) ← validateParams lam loc scale
  if n = 0 then
    return 1
  let terms ← (List.range (n + 1)).mapM fun (i : ℕ) => do
    return (← mp.binomial n i) * mp.ipow loc (n - i) * mp.ipow scale i * (← standardNoncentralMoment i lam)
  return mp.fsum terms

end Mpsci.tukeylambda
