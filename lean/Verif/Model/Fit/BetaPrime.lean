import Verif.Model.Dist.BetaPrime
import Verif.Model.Stats.Basic
import Verif.Model.Fit.Param
import Verif.Base.Digamma

/-! Model of `nll` and `mle` of `mpsci/distributions/betaprime.py`. -/

namespace Mpsci.betaprime

open Classical Num common

/-- `betaprime.py` 299-308 -/
noncomputable def nll (x : List Num) (a b scale : Num) : M Num := do
  let (a, b, scale) ← validateParams a b scale
  let x ← validateXBounds x (some 0) (some pinf) false true
  return -mp.fsum (← x.mapM fun t => logpdf t a b scale)

/-- `_mean([mp.log(t) for t in x])` -/
noncomputable def meanLog (x : List Num) : M Num := do
  stats.mean (← x.mapM fun t => mp.log t)

/-- `_mean([mp.log1p(t/scale) for t in x])` -/
noncomputable def meanLog1p (x : List Num) (scale : Num) : M Num := do
  stats.mean (← x.mapM fun t => do mp.log1p (← t /. scale))

/-- `_mean([(t/scale)/(1 + t/scale) for t in x])` -/
noncomputable def meanRatio (x : List Num) (scale : Num) : M Num := do
  stats.mean (← x.mapM fun t => do (← t /. scale) /. (1 + (← t /. scale)))

/-- `betaprime.py` 346-367: all parameters free -/
noncomputable def mleAll (findroot3 : (Num → Num → Num → M (Num × Num × Num)) → Num × Num × Num → M (Num × Num × Num)) (x : List Num)
    (pa pb ps : Param) : M (Num × Num × Num) := do
  let meanlogx ← meanLog x
  findroot3 (fun a b scale => do
    let meanlog1px ← meanLog1p x scale
    let meanxover1px ← meanRatio x scale
    let d1 ← mp.digamma (a + b)
    let eq1 := (← mp.digamma a) - d1 - (meanlogx - meanlog1px) + (← mp.log scale)
    let eq2 := (← mp.digamma b) - d1 + meanlog1px
    let eq3 := a - (a + b) * meanxover1px
    return (eq1, eq2, eq3)) (pa.start, pb.start, ps.start)

/-- `betaprime.py` 370-387: `a` and `b` free -/
noncomputable def mleAB (findroot2 : (Num → Num → M (Num × Num)) → Num × Num → M (Num × Num)) (x : List Num) (pa pb : Param)
    (scale : Num) : M (Num × Num × Num) := do
  let (_, _, scale) ← validateParams 1 1 scale
  let meanlog1px ← meanLog1p x scale
  let meanlogx ← meanLog x
  let lnscale ← mp.log scale
  let (ahat, bhat) ← findroot2 (fun a b => do
    let d1 ← mp.digamma (a + b)
    let eq1 := (← mp.digamma a) - d1 - (meanlogx - meanlog1px) + lnscale
    let eq2 := (← mp.digamma b) - d1 + meanlog1px
    return (eq1, eq2)) (pa.start, pb.start)
  return (ahat, bhat, scale)

/-- `betaprime.py` 388-397: `b` free -/
noncomputable def mleB (findroot1 : (Num → M Num) → Num → M Num) (x : List Num) (a : Num) (pb : Param) (scale : Num) :
    M (Num × Num × Num) := do
  let (a, _, scale) ← validateParams a 1 scale
  let meanlog1px ← meanLog1p x scale
  let bhat ← findroot1 (fun b => do return (← mp.digamma b) - (← mp.digamma (a + b)) + meanlog1px) pb.start
  return (a, bhat, scale)

/-- `betaprime.py` 398-411: `a` free -/
noncomputable def mleA (findroot1 : (Num → M Num) → Num → M Num) (x : List Num) (pa : Param) (b scale : Num) :
    M (Num × Num × Num) := do
  let (_, b, scale) ← validateParams 1 b scale
  let meanlog1px ← meanLog1p x scale
  let meanlogx ← meanLog x
  let logscale ← mp.log scale
  let ahat ← findroot1 (fun a => do return (← mp.digamma a) - (← mp.digamma (a + b)) - meanlogx + meanlog1px + logscale) pa.start
  return (ahat, b, scale)

/-- `betaprime.py` 414-422: `scale` free -/
noncomputable def mleS (findroot1 : (Num → M Num) → Num → M Num) (x : List Num) (a b : Num) (ps : Param) :
    M (Num × Num × Num) := do
  let (a, b, _) ← validateParams a b 1
  let scalehat ← findroot1 (fun s => do return a - (a + b) * (← meanRatio x s)) ps.start
  return (a, b, scalehat)

/-- `betaprime.py` 423-439: `b` and `scale` free -/
noncomputable def mleBS (findroot1 : (Num → M Num) → Num → M Num) (x : List Num) (a : Num) (ps : Param) :
    M (Num × Num × Num) := do
  let (a, _, _) ← validateParams a 1 1
  let scalehat ← findroot1 (fun s => do
    let meanxover1px ← meanRatio x s
    let meanlog1px ← meanLog1p x s
    return (← mp.digamma (a * ((← 1 /. meanxover1px) - 1))) - (← mp.digamma (← a /. meanxover1px)) + meanlog1px) ps.start
  let meanxover1px ← meanRatio x scalehat
  return (a, a * ((← 1 /. meanxover1px) - 1), scalehat)

/-- `betaprime.py` 440-460: `a` and `scale` free -/
noncomputable def mleAS (findroot1 : (Num → M Num) → Num → M Num) (x : List Num) (b : Num) (ps : Param) :
    M (Num × Num × Num) := do
  let (_, b, _) ← validateParams 1 b 1
  let scalehat ← findroot1 (fun s => do
    let meanxover1px ← meanRatio x s
    let meanlog1px ← meanLog1p x s
    let meanlogx ← meanLog x
    return (← mp.digamma (b * (← meanxover1px /. (1 - meanxover1px)))) - (← mp.digamma (← b /. (1 - meanxover1px)))
      - meanlogx + meanlog1px + (← mp.log s)) ps.start
  let meanxover1px ← meanRatio x scalehat
  return (b * (← meanxover1px /. (1 - meanxover1px)), b, scalehat)

/-- `betaprime.py` 316-460.  `findroot1`, `findroot2`, `findroot3` are `mp.findroot` with one, two and three unknowns. -/
noncomputable def mle (findroot1 : (Num → M Num) → Num → M Num) (findroot2 : (Num → Num → M (Num × Num)) → Num × Num → M (Num × Num))
    (findroot3 : (Num → Num → Num → M (Num × Num × Num)) → Num × Num × Num → M (Num × Num × Num))
    (x : List Num) (pa pb ps : Param) : M (Num × Num × Num) := do
  let x ← validateXBounds x (some 0) (some pinf) false true
  match pa, pb, ps with
  | .fixed a, .fixed b, .fixed scale => validateParams a b scale
  | .fixed a, pb, .fixed scale => mleB findroot1 x a pb scale
  | pa, .fixed b, .fixed scale => mleA findroot1 x pa b scale
  | pa, pb, .fixed scale => mleAB findroot2 x pa pb scale
  | .fixed a, .fixed b, ps => mleS findroot1 x a b ps
  | .fixed a, _, ps => mleBS findroot1 x a ps
  | _, .fixed b, ps => mleAS findroot1 x b ps
  | pa, pb, ps => mleAll findroot3 x pa pb ps

end Mpsci.betaprime
