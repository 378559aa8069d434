import Verif.Base.Mp
import Verif.Base.Digamma
import Verif.Model.Common.Newton
import Verif.Model.Fun.Logbeta
import Verif.Model.Fun.Powm1

/-!
# `mpsci/distributions/dirichlet.py`
-/

namespace Mpsci.dirichlet

open Classical Num

/-- `_validate_alpha(alpha)`, `dirichlet.py` lines 16–20. -/
noncomputable def validateAlpha (alpha : List Num) : M (List Num) :=
  if ∃ a ∈ alpha, a ≤ 0 then .error .valueError else .ok alpha

/-- `mean(alpha)`, `dirichlet.py` lines 62–69. -/
noncomputable def mean (alpha : List Num) : M (List Num) := do
  let alpha ← validateAlpha alpha
  let a0 := mp.fsum alpha
  alpha.mapM (fun a => a /. a0)

/-- `covar[i, j] = v` for an `mp.matrix` seen as a function of its indices. -/
def setAt (m : ℕ → ℕ → Num) (i j : ℕ) (v : Num) : ℕ → ℕ → Num :=
  fun p q => if p = i ∧ q = j then v else m p q

/-- The body of the inner loop of `cov`, `dirichlet.py` lines 87–88. -/
noncomputable def covInner (r : ℕ → Num) (a0 : Num) (i : ℕ) (m : ℕ → ℕ → Num) (j : ℕ) :
    M (ℕ → ℕ → Num) := do
  let v ← (-(r i) * r j) /. (a0 + 1)
  let m := setAt m i j v
  return setAt m j i (m i j)

/-- The body of the outer loop of `cov`, `dirichlet.py` lines 85–88. -/
noncomputable def covOuter (r : ℕ → Num) (a0 : Num) (n : ℕ) (m : ℕ → ℕ → Num) (i : ℕ) :
    M (ℕ → ℕ → Num) := do
  let v ← (r i * (1 - r i)) /. (a0 + 1)
  (List.range' (i + 1) (n - (i + 1))).foldlM (covInner r a0 i) (setAt m i i v)

/-- `cov(alpha)`, `dirichlet.py` lines 72–89; the matrix is returned as a function of its two
indices (meaningful below `len(alpha)`). -/
noncomputable def cov (alpha : List Num) : M (ℕ → ℕ → Num) := do
  let alpha ← validateAlpha alpha
  let n := alpha.length
  let a0 := mp.fsum alpha
  let r ← alpha.mapM (fun a => a /. a0)
  (List.range n).foldlM (covOuter (fun i => r.getD i nan) a0 n) (fun _ _ => 0)

/-- `_validate_x(x)`, `dirichlet.py` lines 23–32; `eps` is the tolerance `2**(-mp.prec + 4)` of `mp.almosteq`. -/
noncomputable def validateX (eps : ℝ) (x : List Num) : M (List Num) :=
  if ∃ t ∈ x, t < 0 then .error .valueError
  else
    let s := mp.fsum x
    if ¬ mp.almosteqD eps s 1 then .error .valueError
    else .ok x

/-- `_validate_x_alpha(x, alpha)`, `dirichlet.py` lines 35–40. -/
noncomputable def validateXAlpha (eps : ℝ) (x alpha : List Num) : M (List Num × List Num) := do
  let alpha ← validateAlpha alpha
  let x ← validateX eps x
  if alpha.length ≠ x.length then .error .valueError
  else return (x, alpha)

/-- `logpdf(x, alpha)`, `dirichlet.py` lines 43–52. -/
noncomputable def logpdf (eps : ℝ) (x alpha : List Num) : M Num := do
  let (x, alpha) ← validateXAlpha eps x alpha
  let b ← fun_.multivariateLogbeta alpha
  let terms ← (x.zip alpha).mapM (fun (t, a) => fun_.xlogy (a - 1) t)
  return mp.fsum (terms ++ [-b])

/-- `pdf(x, alpha)`, `dirichlet.py` lines 55–59. -/
noncomputable def pdf (eps : ℝ) (x alpha : List Num) : M Num := do
  return mp.exp (← logpdf eps x alpha)

/-- `entropy(alpha)`, `dirichlet.py` lines 92–102. -/
noncomputable def entropy (alpha : List Num) : M Num := do
  let alpha ← validateAlpha alpha
  let a0 := mp.fsum alpha
  let lb ← fun_.multivariateLogbeta alpha
  let d := (a0 - fin alpha.length) * (← mp.digamma a0)
  let terms ← alpha.mapM (fun a => do return -(a - 1) * (← mp.digamma a))
  return mp.fsum ([lb, d] ++ terms)

end Mpsci.dirichlet
