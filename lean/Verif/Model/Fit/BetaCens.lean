import Verif.Model.Fit.Beta
import Verif.Base.Diff
import Verif.Base.Mat

/-!
Model of the fit to interval-censored data of `mpsci/distributions/beta.py`.

`mp.diff` is exact (Base/Diff.lean); `mp.diff(f, x, n=2)` is the derivative of the derivative.
-/

namespace Mpsci.beta

open Classical Num

/-- `beta.py` 341-344 -/
noncomputable def nllCens (a b : Num) (lo hi : List Num) : M Num := do
  return -mp.fsum (← (lo.zip hi).mapM fun x => do mp.log (← intervalProb x.1 x.2 a b))

/-- `beta.py` 347-348 -/
noncomputable def nllCensDa (a b : Num) (lo hi : List Num) : M Num := mp.diff (fun t => nllCens t b lo hi) a

/-- `beta.py` 351-352 -/
noncomputable def nllCensDb (a b : Num) (lo hi : List Num) : M Num := mp.diff (fun t => nllCens a t lo hi) b

/-- `beta.py` 355-356 -/
noncomputable def nllCensD2a (a b : Num) (lo hi : List Num) : M Num := mp.diff (mp.diff fun t => nllCens t b lo hi) a

/-- `beta.py` 359-360 -/
noncomputable def nllCensD2b (a b : Num) (lo hi : List Num) : M Num := mp.diff (mp.diff fun t => nllCens a t lo hi) b

/-- `beta.py` 363-364 -/
noncomputable def nllCensDadb (a b : Num) (lo hi : List Num) : M Num := mp.diff (fun t => nllCensDa a t lo hi) b

/-- The matrix `hess` of `_mle_cens`, `beta.py` 425-429 -/
noncomputable def hessCens (a b : Num) (lo hi : List Num) : M mp.Mat := do
  let h00 ← nllCensD2a a b lo hi
  let h11 ← nllCensD2b a b lo hi
  let h01 ← nllCensDadb a b lo hi
  return ⟨2, 2, fun i j => if i = j then (if i = 0 then h00 else h11) else h01⟩

/-- The starting point of `_mle_cens`: the given one, or the fit to the midpoints, `beta.py` 418-420 -/
noncomputable def startCens (findroot1 : (Num → M Num) → Num → M Num)
    (findroot2 : (Num → Num → M (Num × Num)) → Num × Num → M (Num × Num)) (lo hi : List Num) : Option (Num × Num) → M (Num × Num)
  | some p => return p
  | none => mle findroot1 findroot2 ((lo.zip hi).map fun x => fin (1 / 2) * (x.1 + x.2)) .none .none

/-- `beta.py` 367-435 `_mle_cens`.  `p0` is the starting point, or `none`.  `findroot1`, `findroot2` are `mp.findroot` with one and
two unknowns. -/
noncomputable def mleCens (findroot1 : (Num → M Num) → Num → M Num)
    (findroot2 : (Num → Num → M (Num × Num)) → Num × Num → M (Num × Num)) (lo hi : List Num) (p0 : Option (Num × Num)) :
    M (Num × Num × mp.Mat × Num × Num) := do
  let p0 ← startCens findroot1 findroot2 lo hi p0
  let (a, b) ← findroot2 (fun a b => do return (← nllCensDa a b lo hi, ← nllCensDb a b lo hi)) p0
  let hess ← hessCens a b lo hi
  let hessinv ← mp.inverse hess
  return (a, b, hess, ← mp.sqrt (hessinv.get 0 0), ← mp.sqrt (hessinv.get 1 1))

end Mpsci.beta
