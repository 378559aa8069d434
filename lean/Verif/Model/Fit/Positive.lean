import Verif.Model.Dist.Pareto
import Verif.Model.Dist.Gompertz
import Verif.Model.Dist.Kumaraswamy
import Verif.Model.Dist.Burr12
import Verif.Model.Dist.Weibull
import Verif.Model.Dist.Benini
import Verif.Model.Stats.Basic
import Verif.Model.Fit.Param
import Verif.Base.Sigmoid
import Verif.Base.Loop
import Verif.Base.Py
import Verif.Base.Sort

/-! Models of the estimators of pareto, gompertz, kumaraswamy, burr12, weibull_min and weibull_max.

`mp.findroot` is a parameter: `findroot` (one unknown and one starting value), `findrootB` (one unknown and two starting
values), `findroot2`, `findroot3` (two or three unknowns). -/

namespace Mpsci.pareto

open Classical Num common

/-- `pareto.py` 157-168. -/
noncomputable def nll (x : List Num) (b : Num) (loc : Num := 0) (scale : Num := 1) : M Num := do
  let (b, loc, scale) ← validateParams b loc scale
  let x ← validateXBounds x (some (loc + scale)) none false false
  return -mp.fsum (← x.mapM fun t => logpdf t b loc scale)

/-- `pareto.py` 205-210. -/
noncomputable def mleEqns (x : List Num) (x1 b scale : Num) : M (Num × Num) := do
  let n := stats.len x
  let s1 := mp.fsum (← x.mapM fun t => mp.log (t - x1 + scale))
  let eq1 := (← n /. b) + n * (← mp.log scale) - s1
  let s2 := mp.fsum (← x.mapM fun t => 1 /. (t - x1 + scale))
  let eq2 := (← n * b /. scale) - (b + 1) * s2
  return (eq1, eq2)

/-- `pareto.py` 244-246. -/
noncomputable def mleEqn (x : List Num) (x1 b scale : Num) : M Num := do
  let n := stats.len x
  let s := mp.fsum (← x.mapM fun t => 1 /. (t - x1 + scale))
  return (← n * b /. scale) - (b + 1) * s

/-- `pareto.py` 175-265. -/
noncomputable def mle (findroot : (Num → M Num) → Num → M Num)
    (findroot2 : (Num → Num → M (Num × Num)) → Num × Num → M (Num × Num))
    (x : List Num) (b loc scale : Param) : M (Num × Num × Num) := do
  let n := stats.len x
  match b, loc, scale with
  | .fixed b, .fixed loc, .fixed scale =>
    let (b, loc, scale) ← validateParams b loc scale
    let _ ← validateXBounds x (some (loc + scale)) (some pinf) false false
    return (b, loc, scale)
  | .fixed b, .fixed loc, _ =>
    let (b, loc, _) ← validateParams b loc 1
    let x ← validateXBounds x (some loc) (some pinf) false false
    let x1 ← py.min x
    return (b, loc, x1 - loc)
  | .fixed b, _, .fixed scale =>
    let (b, _, scale) ← validateParams b 0 scale
    let x1 ← py.min x
    return (b, x1 - scale, scale)
  | .fixed b, _, scale =>
    let (b, _, _) ← validateParams b 0 1
    let x ← validateXBounds x (some ninf) (some pinf) false false
    let x1 ← py.min x
    let scaleHat ← findroot (fun scale => mleEqn x x1 b scale) scale.start
    return (b, x1 - scaleHat, scaleHat)
  | _, _, .fixed scale => freeB x n scale
  | _, .fixed loc, _ =>
    let x ← validateXBounds x (some loc) (some pinf) false false
    let x1 ← py.min x
    let scaleHat := x1 - loc
    let s1 := mp.fsum (← x.mapM fun t => mp.log (t - loc))
    let bHat ← 1 /. ((← s1 /. n) - (← mp.log scaleHat))
    return (bHat, loc, scaleHat)
  | b, _, scale =>
    let x ← validateXBounds x (some ninf) (some pinf) false false
    let x1 ← py.min x
    let (bHat, scaleHat) ← findroot2 (fun b scale => mleEqns x x1 b scale) (b.start, scale.start)
    return (bHat, x1 - scaleHat, scaleHat)
where
  /-- Lines 229-235: the scale is fixed and `b` is not; the code does not look at `loc`, which may be fixed too. -/
  freeB (x : List Num) (n scale : Num) : M (Num × Num × Num) := do
    let (_, _, scale) ← validateParams 1 1 scale
    let x ← validateXBounds x (some ninf) (some pinf) false false
    let x1 ← py.min x
    let locHat := x1 - scale
    let s1 := mp.fsum (← x.mapM fun t => mp.log (t - locHat))
    let bHat ← 1 /. ((← s1 /. n) - (← mp.log scale))
    return (bHat, locHat, scale)

end Mpsci.pareto

namespace Mpsci.gompertz

open Classical Num common

/-- `gompertz.py` 199-209. -/
noncomputable def nll (x : List Num) (c scale : Num) : M Num := do
  let (c, scale) ← validateCScale c scale
  let x ← validateXBounds x (some 0) (some pinf) false true
  return -mp.fsum (← x.mapM fun t => logpdf t c scale)

/-- `gompertz.py` 238-240. -/
noncomputable def mleScaleEqn (x : List Num) (meanx scale : Num) : M Num := do
  let meanexpx ← stats.mean (← x.mapM fun t => do return mp.exp (← t /. scale))
  let meanxexpx ← stats.mean (← x.mapM fun t => do return t * mp.exp (← t /. scale))
  return -scale - meanx + (← meanxexpx /. (meanexpx - 1))

/-- `gompertz.py` 258-259. -/
noncomputable def mleScaleEqnFixed (x : List Num) (meanx c scale : Num) : M Num := do
  let meanxexpx ← stats.mean (← x.mapM fun t => do return t * mp.exp (← t /. scale))
  return -scale - meanx + c * meanxexpx

/-- `gompertz.py` 229-230 and 243-244. -/
noncomputable def cFor (x : List Num) (scale : Num) : M Num := do
  let meanexpx ← stats.mean (← x.mapM fun t => do return mp.exp (← t /. scale))
  1 /. (meanexpx - 1)

/-- `gompertz.py` 212-262 (`c` is `None` or a number). -/
noncomputable def mle (findroot : (Num → M Num) → Num → M Num) (x : List Num) (c : Option Num) (scale : Param) :
    M (Num × Num) := do
  let x ← validateXBounds x (some 0) (some pinf) false true
  match c, scale with
  | none, .fixed scale =>
    let (_, scale) ← validateCScale 1 scale
    return (← cFor x scale, scale)
  | none, scale =>
    let meanx ← stats.mean x
    let scalehat ← findroot (fun s => mleScaleEqn x meanx s) scale.start
    return (← cFor x scalehat, scalehat)
  | some c, .fixed scale => validateCScale c scale
  | some c, scale =>
    let (c, _) ← validateCScale c 1
    let meanx ← stats.mean x
    let scalehat ← findroot (fun s => mleScaleEqnFixed x meanx c s) scale.start
    return (c, scalehat)

end Mpsci.gompertz

namespace Mpsci.kumaraswamy

open Classical Num common

/-- `kumaraswamy.py` 225-235. -/
noncomputable def nll (x : List Num) (a b : Num) : M Num := do
  let x ← validateXBounds x (some 0) (some 1) true true
  let (a, b) ← validateAB a b
  return -mp.fsum (← x.mapM fun t => logpdf t a b)

/-- `kumaraswamy.py` 241 and 247, the sum `s3`. -/
noncomputable def mleS3 (a : Num) (x : List Num) : M Num := do
  return mp.fsum (← x.mapM fun t => do (← mp.power t a) * (← mp.log t) /. -(← mp.powm1 t a))

/-- `kumaraswamy.py` 240 and 278, the sum of `log1p(-t**a)`. -/
noncomputable def mleS2 (a : Num) (x : List Num) : M Num := do
  return mp.fsum (← x.mapM fun t => do mp.log1p (-(← mp.power t a)))

/-- `kumaraswamy.py` 238-242. -/
noncomputable def mleAEqn (a : Num) (x : List Num) (sumlogx : Num) : M Num := do
  let n := stats.len x
  let s2 ← mleS2 a x
  let s3 ← mleS3 a x
  return (← n /. a) + sumlogx + (1 + (← n /. s2)) * s3

/-- `kumaraswamy.py` 245-248. -/
noncomputable def mleAEqnBFixed (a b : Num) (x : List Num) (sumlogx : Num) : M Num := do
  let n := stats.len x
  let s3 ← mleS3 a x
  return (← n /. a) + sumlogx + (1 - b) * s3

/-- `kumaraswamy.py` 251-294 (`b` is `None` or a number). -/
noncomputable def mle (findroot : (Num → M Num) → Num → M Num) (x : List Num) (a : Param) (b : Option Num) :
    M (Num × Num) := do
  let x ← validateXBounds x (some 0) (some 1) true true
  let n := stats.len x
  let sumlogx := mp.fsum (← x.mapM mp.log)
  match a, b with
  | .fixed a, some b => validateAB a b
  | .fixed a, none =>
    let (a, _) ← validateAB a 1
    return (a, ← -n /. (← mleS2 a x))
  | a, none =>
    let a ← findroot (fun t => mleAEqn t x sumlogx) a.start
    return (a, ← -n /. (← mleS2 a x))
  | a, some b =>
    let (_, b) ← validateAB 1 b
    let a ← findroot (fun t => mleAEqnBFixed t b x sumlogx) a.start
    return (a, b)

end Mpsci.kumaraswamy

namespace Mpsci.burr12

open Classical Num common

/-- `burr12.py` 176-185. -/
noncomputable def nll (x : List Num) (c d scale : Num) : M Num := do
  let (c, d, scale) ← validateParams c d scale
  let x ← validateXBounds x (some 0) (some pinf) true false
  return -mp.fsum (← x.mapM fun t => logpdf t c d scale)

/-- `burr12.py` 191-199. -/
noncomputable def nllGrad (x : List Num) (c d scale : Num) : M (Num × Num × Num) := do
  let n := stats.len x
  let sumlogx := mp.fsum (← x.mapM mp.log)
  let z ← x.mapM fun xi => xi /. scale
  let r ← z.mapM fun zi => do (← mp.power zi c) /. (1 + (← mp.power zi c))
  return ((← n /. c) - n * (← mp.log scale) + sumlogx
      - (d + 1) * mp.fsum (← (r.zip z).mapM fun p => do return p.1 * (← mp.log p.2)),
    (← n /. d) - mp.fsum (← z.mapM fun zi => do mp.log1p (← mp.power zi c)),
    ← (-c * n + c * (d + 1) * mp.fsum r) /. scale)

/-- `burr12.py` 215-220. -/
noncomputable def eqScale (x : List Num) (c scale : Num) : M Num := do
  let n := stats.len x
  let z ← x.mapM fun t => t /. scale
  let zc ← z.mapM fun t => mp.power t c
  let s1 ← n /. mp.fsum (← zc.mapM mp.log1p)
  let s2 ← mp.fsum (← zc.mapM fun t => t /. (1 + t)) /. n
  return 1 - (s1 + 1) * s2

/-- `burr12.py` 211-225. -/
noncomputable def mleDScale (findroot : (Num → M Num) → Num → M Num) (x : List Num) (c scale0 : Num) :
    M (Num × Num) := do
  let n := stats.len x
  let scale ← findroot (fun s => eqScale x c s) scale0
  let zc ← x.mapM fun t => do mp.power (← t /. scale) c
  let s1 := mp.fsum (← zc.mapM mp.log1p)
  return (← n /. s1, scale)

/-- `burr12.py` 228-235. -/
noncomputable def mleCScale (findroot2 : (Num → Num → M (Num × Num)) → Num × Num → M (Num × Num)) (x : List Num)
    (d c0 scale0 : Num) : M (Num × Num) :=
  findroot2 (fun c scale => do
    let v ← nllGrad x c d scale
    return (v.1, v.2.2)) (c0, scale0)

/-- `burr12.py` 239-247. -/
noncomputable def scaleEqCD (scale : Num) (x : List Num) (c d : Num) : M Num := do
  let q ← x.mapM fun t => do mp.power (← t /. scale) c
  let w ← q.mapM fun t => t /. (1 + t)
  let m ← stats.mean w
  return 1 - (d + 1) * m

/-- The loop of lines 252-259 (and 277-284, 302-309): `a`, `b` start as 0 and `eps`, and `b` is multiplied by 4 while
`test (func b)`. -/
noncomputable def bracket (func : Num → M Num) (test : Num → Prop) (eps : Num) (fuel : ℕ) : M (Num × Num) := do
  let v ← func eps
  let (a, b, _) ← loop (σ := Num × Num × Num) (fun st => pure (test st.2.2))
    (fun st => do
      let b := st.2.1 * 4
      return (st.2.1, b, ← func b)) fuel (0, eps, v)
  return (a, b)

/-- `burr12.py` 251-259. -/
noncomputable def findScaleBracket (eps : Num) (fuel : ℕ) (x : List Num) (c d : Num) : M (Num × Num) :=
  bracket (fun s => scaleEqCD s x c d) (· < 0) eps fuel

/-- `burr12.py` 269-272, after `d` is known. -/
noncomputable def cEq (c : Num) (x : List Num) (d scale : Num) : M Num := do
  let n := stats.len x
  let z ← x.mapM fun xi => xi /. scale
  let logz ← z.mapM mp.log
  return (← n /. c) + mp.fsum logz
    - (d + 1) * mp.fsum (← z.mapM fun zi => do return (← mp.sigmoid (c * (← mp.log zi))) * (← mp.log zi))

/-- `burr12.py` 276-284. -/
noncomputable def findCBracket (eps : Num) (fuel : ℕ) (x : List Num) (d scale : Num) : M (Num × Num) :=
  bracket (fun c => cEq c x d scale) (0 < ·) eps fuel

/-- `burr12.py` 295, 353 and 372. -/
noncomputable def dFor (x : List Num) (c scale : Num) : M Num := do
  1 /. (← stats.mean (← x.mapM fun xi => do mp.log1p (← mp.power (← xi /. scale) c)))

/-- `burr12.py` 288-297. -/
noncomputable def cEqScaleFixed (c : Num) (x : List Num) (scale : Num) : M Num := do
  let d ← dFor x c scale
  cEq c x d scale

/-- `burr12.py` 301-309. -/
noncomputable def findCBracketScaleFixed (eps : Num) (fuel : ℕ) (x : List Num) (scale : Num) : M (Num × Num) :=
  bracket (fun c => cEqScaleFixed c x scale) (0 < ·) eps fuel

/-- `burr12.py` 312-390.  `findrootB` gets the two ends of a bracket (the code passes `method='anderson'`, which mpmath
ignores: the keyword is `solver`).  Lines 202-208 `_mle_c_d_scale` (and 204-205 in it) are inlined. -/
noncomputable def mle (findroot : (Num → M Num) → Num → M Num) (findrootB : (Num → M Num) → Num → Num → M Num)
    (findroot2 : (Num → Num → M (Num × Num)) → Num × Num → M (Num × Num))
    (findroot3 : (Num → Num → Num → M (Num × Num × Num)) → Num × Num × Num → M (Num × Num × Num))
    (eps : Num) (fuel : ℕ) (x : List Num) (c d scale : Param) : M (Num × Num × Num) := do
  let x ← validateXBounds x (some 0) (some pinf) true false
  match c, d, scale with
  | .fixed c, .fixed d, .fixed scale => validateParams c d scale
  | .fixed c, .fixed d, scale =>
    let (c, d, _) ← validateParams c d scale.start
    let (lo, hi) ← findScaleBracket eps fuel x c d
    let scale ← findrootB (fun s => scaleEqCD s x c d) lo hi
    return (c, d, scale)
  | .fixed c, d, .fixed scale =>
    let (c, _, scale) ← validateParams c d.start scale
    let d ← dFor x c scale
    return (c, d, scale)
  | .fixed c, d, scale =>
    let (c, _, scale0) ← validateParams c d.start scale.start
    let (d, scale) ← mleDScale findroot x c scale0
    return (c, d, scale)
  | c, .fixed d, .fixed scale =>
    let (_, d, scale) ← validateParams c.start d scale
    let (lo, hi) ← findCBracket eps fuel x d scale
    let c ← findrootB (fun t => cEq t x d scale) lo hi
    return (c, d, scale)
  | c, .fixed d, scale =>
    let (c0, d, scale0) ← validateParams c.start d scale.start
    let (c, scale) ← mleCScale findroot2 x d c0 scale0
    return (c, d, scale)
  | c, d, .fixed scale =>
    let (_, _, scale) ← validateParams c.start d.start scale
    let (lo, hi) ← findCBracketScaleFixed eps fuel x scale
    let c ← findrootB (fun t => cEqScaleFixed t x scale) lo hi
    let d ← dFor x c scale
    return (c, d, scale)
  | c, d, scale =>
    let (c0, d0, scale0) ← validateParams c.start d.start scale.start
    findroot3 (fun c d scale => nllGrad x c d scale) (c0, d0, scale0)

end Mpsci.burr12

namespace Mpsci.weibull_common

open Classical Num

/-- `_weibull_common.py` 19-27. -/
noncomputable def mleKEqn1 (k : Num) (x : List Num) : M Num := do
  let lnx ← x.mapM mp.log
  let xk ← x.mapM fun xi => mp.power xi k
  let xklnx := (xk.zip lnx).map fun p => p.1 * p.2
  let t1 ← mp.fsum xklnx /. mp.fsum xk
  let t2 ← mp.fsum lnx /. stats.len x
  return t1 - t2 - (← 1 /. k)

/-- `_weibull_common.py` 30-39. -/
noncomputable def mleKEqn2 (k : Num) (x : List Num) (scale : Num) : M Num := do
  let n := stats.len x
  let lnx ← x.mapM mp.log
  let xk ← x.mapM fun xi => mp.power xi k
  let xklnx ← x.mapM fun xi => do return (← mp.power xi k) * (← mp.log xi)
  let m1 ← mp.fsum xk /. n
  let m2 ← mp.fsum xklnx /. n
  let lnscale ← mp.log scale
  return (← 1 /. k) - lnscale + (← mp.fsum lnx /. n) + (← 1 /. (← mp.power scale k)) * (lnscale * m1 - m2)

/-- `_common.py` 101-112, `_median`; for an even number of data the slice `xs[m-1:m+1]` is written with `drop` and `take`
(without data it is empty). -/
noncomputable def median (x : List Num) : M Num := do
  let xs := py.sorted x
  let n : ℤ := xs.length
  let m := n / 2
  if n % 2 = 1 then py.item xs m
  else mp.fsum ((xs.drop (m - 1).toNat).take 2) /. 2

/-- `weibull_min.py` 296-328 and `weibull_max.py` 294-326, which are the same code: `x` are the (reflected) data minus
`loc`. -/
noncomputable def mleShifted (findroot : (Num → M Num) → Num → M Num) (x : List Num) (k : Option Num) (loc : Num)
    (scale : Option Num) : M (Num × Num × Num) := do
  if ∃ k' ∈ k, k' ≤ 0 then throw .valueError
  if ∃ s ∈ scale, s ≤ 0 then throw .valueError
  match k, scale with
  | none, none =>
    let kHat ← findroot (fun k => mleKEqn1 k x) 1
    return (kHat, loc, ← stats.pmean x kHat)
  | some k, none => return (k, loc, ← stats.pmean x k)
  | none, some scale =>
    let med ← median x
    let lnr ← mp.log (← med /. scale)
    let k0 ← if 0 ≤ lnr then pure 1 else (← mp.log (← mp.log 2)) /. lnr
    let kHat ← findroot (fun k => mleKEqn2 k x scale) k0
    return (kHat, loc, scale)
  | some k, some scale => return (k, loc, scale)

end Mpsci.weibull_common

namespace Mpsci.weibull_min

open Classical Num common weibull_common

/-- `weibull_min.py` 270-277. -/
noncomputable def nll (x : List Num) (k loc scale : Num) : M Num := do
  let _ ← validateParams k loc scale
  let x ← validateXBounds x (some loc) none true false
  return -mp.fsum (← x.mapM fun t => logpdf t k loc scale)

/-- `weibull_min.py` 280-328. -/
noncomputable def mle (findroot : (Num → M Num) → Num → M Num) (x : List Num) (k loc scale : Option Num) :
    M (Num × Num × Num) := do
  match loc with
  | none => throw .valueError
  | some loc =>
    let x ← validateXBounds x (some loc) none true false
    mleShifted findroot (x.map fun t => t - loc) k loc scale

end Mpsci.weibull_min

namespace Mpsci.weibull_max

open Classical Num common weibull_common

/-- `weibull_max.py` 266-273. -/
noncomputable def nll (x : List Num) (k loc scale : Num) : M Num := do
  let _ ← validateParams k loc scale
  let x ← validateXBounds x none (some loc) false true
  return -mp.fsum (← x.mapM fun t => logpdf t k loc scale)

/-- `weibull_max.py` 276-326. -/
noncomputable def mle (findroot : (Num → M Num) → Num → M Num) (x : List Num) (k loc scale : Option Num) :
    M (Num × Num × Num) := do
  match loc with
  | none => throw .valueError
  | some loc =>
    let x ← validateXBounds x none (some loc) false true
    mleShifted findroot (x.map fun t => -t + loc) k loc scale

end Mpsci.weibull_max

namespace Mpsci.benini

open Classical Num common

/-- `benini.py` 269-278. -/
noncomputable def nll (x : List Num) (alpha beta scale : Num) : M Num := do
  let (alpha, beta, scale) ← validateParams alpha beta scale
  let x ← validateXBounds x (some scale) (some pinf) false false
  return -mp.fsum (← x.mapM fun t => logpdf t alpha beta scale)

end Mpsci.benini
