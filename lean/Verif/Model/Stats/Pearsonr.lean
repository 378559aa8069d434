import Verif.Base.PyNum
import Verif.Base.Special
import Verif.Model.Dist.Normal
import Mathlib.Analysis.SpecialFunctions.Artanh

/-! Model of `mpsci/stats/_pearsonr.py`. -/

namespace Mpsci

open Classical Num in
/-- `mp.atanh(x)`: infinite at -1 and 1, complex beyond. -/
noncomputable def mp.atanh : Num → M Num
  | fin x => if x = 1 then .ok pinf else if x = -1 then .ok ninf
      else if -1 < x ∧ x < 1 then .ok (fin (Real.artanh x)) else .error .complexResult
  | nan => .ok nan
  | _ => .error .complexResult

end Mpsci

namespace Mpsci.stats

open Classical Num

/-- `all(x[0] == t for t in x[1:])`, `_pearsonr.py` 51; true when there are no further elements. -/
def allSame : List Num → Prop
  | [] => True
  | a :: l => ∀ t ∈ l, a =. t

/-- `_pearsonr.py` 71-78: the p-value from `r` and `n`. -/
noncomputable def pearsonP (r : Num) (n : ℕ) (alternative : String) : M Num := do
  let a := fin ((n : ℝ) / 2 - 1)
  if alternative = "two-sided" then
    2 * (← mp.betainc a a 0 (fin (1 / 2) * (1 - Num.abs r))) /. (← mp.beta a a)
  else if alternative = "less" then
    (← mp.betainc a a 0 (fin (1 / 2) * (1 + r))) /. (← mp.beta a a)
  else
    (← mp.betainc a a 0 (fin (1 / 2) * (1 - r))) /. (← mp.beta a a)

/-- `_pearsonr.py` 8-81.  The conversion of the data to double precision
(`mp.mpf(float(t))`, lines 57-58) is taken to be exact.  `t**2` is modelled as a product. -/
noncomputable def pearsonr (x y : List Num) (alternative : String := "two-sided") :
    M (Num × Num) := do
  if alternative ≠ "two-sided" ∧ alternative ≠ "less" ∧ alternative ≠ "greater" then
    throw .valueError
  if x.length ≠ y.length then throw .valueError
  if allSame x ∨ allSame y then return (nan, nan)
  match x, y with
  | [x0, x1], [y0, y1] => return (mp.sign (x1 - x0) * mp.sign (y1 - y0), 1)
  | _, _ =>
    let xmean ← mp.fsum x /. fin x.length
    let ymean ← mp.fsum y /. fin y.length
    let xm := x.map fun t => t - xmean
    let ym := y.map fun t => t - ymean
    let num := mp.fsum (List.zipWith (fun s t => s * t) xm ym)
    let den ← mp.sqrt (mp.fsum (xm.map fun t => t * t) * mp.fsum (ym.map fun t => t * t))
    let r ← num /. den
    return (r, ← pearsonP r x.length alternative)

/-- `_pearsonr.py` 83-143. -/
noncomputable def pearsonrCi (r n alpha : Num) (alternative : String := "two-sided") : M (Num × Num) := do
  if alternative ≠ "two-sided" ∧ alternative ≠ "less" ∧ alternative ≠ "greater" then
    throw .valueError
  let zr ← mp.atanh r
  let s ← mp.sqrt (← 1 /. (n - 3))
  if alternative = "two-sided" then
    let h ← normal.invcdf (1 - (← alpha /. 2))
    let zlo := zr - h * s
    let zhi := zr + h * s
    return (mp.tanh zlo, mp.tanh zhi)
  else if alternative = "less" then
    let h ← normal.invcdf (1 - alpha)
    let zhi := zr + h * s
    return (-1, mp.tanh zhi)
  else
    let h ← normal.invcdf (1 - alpha)
    let zlo := zr - h * s
    return (mp.tanh zlo, 1)

end Mpsci.stats
