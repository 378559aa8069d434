import Verif.Base.Diff
import Mathlib.RingTheory.Polynomial.ShiftedLegendre

/-! Model of `mpsci/fun/_legendre.py`. -/

namespace Mpsci

open Classical Num

/-- `mp.legendre(n, x)` for a natural number `n`: the Legendre polynomial, `2F1(-n, n + 1; 1; (1 - x) / 2)`. -/
noncomputable def mp.legendre (n : ℕ) : Num → M Num
  | fin x => .ok (fin (Polynomial.aeval ((1 - x) / 2) (Polynomial.shiftedLegendre n)))
  | _ => .error .notModelled

end Mpsci

namespace Mpsci.fun_

open Classical Num

/-- `_legendre.py` 6-12. -/
noncomputable def rootApprox (n k : ℕ) : M Num := do
  let n : Num := fin (n : ℝ)
  let k : Num := fin (k : ℝ)
  let c := 1 + (← 1 /. (8 * mp.ipow n 2)) * (-1 + (← 1 /. n))
  let a ← mp.pi * (4 * k - 1) /. (4 * n + 2)
  return c * mp.cos a

/-- `_legendre.py` 16-91.  `findroot` is `mp.findroot`; the derivatives of `mp.diff` are taken to be exact. -/
noncomputable def rootsLegendre (findroot : (Num → M Num) → Num → M Num) (n : ℤ) : M (List Num × List Num) := do
  if n < 1 then
    throw .valueError
  else if n = 1 then
    return ([0], [2])
  else if n = 2 then
    let x ← 1 /. (← mp.sqrt 3)
    return ([-x, x], [1, 1])
  else if n = 3 then
    let x ← mp.sqrt (fin 0.6)
    return ([-x, 0, x], [fin (5 / 9), fin (8 / 9), fin (5 / 9)])
  else
    let n := n.toNat
    let approxRoots ← (List.range (n / 2)).mapM fun i => rootApprox n (i + 1)
    let roots ← approxRoots.mapM fun x0 => findroot (mp.legendre n) x0
    let derivs ← roots.mapM fun root => mp.diff (mp.legendre n) root
    let weights ← (roots.zip derivs).mapM fun (root, deriv) => 2 /. ((1 - mp.ipow root 2) * mp.ipow deriv 2)
    let (root0, weight0) ← if n % 2 = 1 then do
        let deriv ← mp.diff (mp.legendre n) 0
        let w ← 2 /. mp.ipow deriv 2
        pure ([(0 : Num)], [w])
      else pure ([], [])
    return (roots.map (- ·) ++ root0 ++ roots.reverse, weights ++ weight0 ++ weights.reverse)

end Mpsci.fun_
