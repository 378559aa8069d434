import Verif.Base.Mat
import Verif.Base.Digamma
import Verif.Base.Const

/-!
# `mpsci/distributions/multivariate_t.py`
-/

namespace Mpsci.multivariate_t

open Classical Num mp

/-- `logpdf(x, nu, loc, scale, scale_inv=None)`, `multivariate_t.py` lines 29–65. -/
noncomputable def logpdf (x : List Num) (nu : Num) (loc : List Num) (scale : Mat) (scale_inv : Option Mat := none) : M Num := do
  let p := fin loc.length
  let scale_inv ← match scale_inv with
    | none => mp.inverse scale
    | some s => pure s
  let loc ← Mat.col scale.cols loc
  let x ← Mat.col scale.cols x
  let delta ← Mat.sub x loc
  let c ← (nu + p) /. 2
  let t1 := -c * (← mp.log1p (← (← Mat.mul (← Mat.mul delta.T scale_inv) delta).get 0 0 /. nu))
  let t2 ← mp.loggamma c
  let t3 ← mp.loggamma (← nu /. 2)
  let t4 := (← p /. 2) * (← mp.log nu)
  let t5 := (← p /. 2) * (← mp.log mp.pi)
  let det ← mp.det scale
  let t6 ← (← mp.log det) /. 2
  return t2 - t3 - t4 - t5 - t6 + t1

/-- `pdf(x, nu, loc, scale, scale_inv=None)`, `multivariate_t.py` lines 68–79. -/
noncomputable def pdf (x : List Num) (nu : Num) (loc : List Num) (scale : Mat) (scale_inv : Option Mat := none) : M Num := do
  return mp.exp (← logpdf x nu loc scale scale_inv)

/-- `entropy(nu, loc, scale)`, `multivariate_t.py` lines 82–98. -/
noncomputable def entropy (nu : Num) (loc : List Num) (scale : Mat) : M Num := do
  let d := fin loc.length
  let mean_nu_d ← (nu + d) /. 2
  let half_nu ← nu /. 2
  return -(← mp.loggamma mean_nu_d) + (← mp.loggamma half_nu) + (← d /. 2) * (← mp.log (nu * mp.pi)) +
    mean_nu_d * ((← mp.digamma mean_nu_d) - (← mp.digamma half_nu)) + (← (← mp.log (Num.abs (← mp.det scale))) /. 2)

end Mpsci.multivariate_t
