import Verif.Base.BesselR
import Verif.Base.Quad
import Verif.Base.Nsum
import Verif.Base.Discrete
import Verif.Base.GammaInc
import Mathlib.NumberTheory.Bernoulli

/-! Models of `mpsci/fun/_hermite_e.py`, `_spherical_bessel.py`, `_wright_bessel.py`, `_debye.py` and `_marcumq.py`. -/

namespace Mpsci

open Classical Num

/-- the physicists' Hermite polynomial `H_n(x)` -/
noncomputable def hermiteH : ℕ → ℝ → ℝ
  | 0, _ => 1
  | 1, x => 2 * x
  | n + 2, x => 2 * x * hermiteH (n + 1) x - 2 * (n + 1) * hermiteH n x

/-- `mp.hermite(n, x)` for a natural number `n`; other orders are not modelled. -/
noncomputable def mp.hermite : Num → Num → M Num
  | fin n, fin x => if n = ⌊n⌋₊ then .ok (fin (hermiteH ⌊n⌋₊ x)) else .error .notModelled
  | _, _ => .error .notModelled

/-- `mp.bernoulli(k)` -/
noncomputable def mp.bernoulli (k : ℕ) : Num := fin (_root_.bernoulli k : ℚ)

end Mpsci

namespace Mpsci.fun_

open Classical Num

/-- `_hermite_e.py` 9-15. -/
noncomputable def hermiteE (n x : Num) : M Num := do
  return (← mp.power 2 (← (-n) /. 2)) * (← mp.hermite n (← x /. (← mp.sqrt 2)))

/-- `_spherical_bessel.py` 6-14. -/
noncomputable def sphericalBesselj (n z : Num) : M Num := do
  return (← mp.besseljR (n + fin (1 / 2)) z) * (← mp.sqrt (← mp.pi /. (2 * z)))
/-- `_spherical_bessel.py` 18-26. -/
noncomputable def sphericalBessely (n z : Num) : M Num := do
  return (← mp.besselyR (n + fin (1 / 2)) z) * (← mp.sqrt (← mp.pi /. (2 * z)))
/-- `_spherical_bessel.py` 30-38. -/
noncomputable def sphericalBesseli (n z : Num) : M Num := do
  return (← mp.besseliR (n + fin (1 / 2)) z) * (← mp.sqrt (← mp.pi /. (2 * z)))
/-- `_spherical_bessel.py` 42-50. -/
noncomputable def sphericalBesselk (n z : Num) : M Num := do
  return (← mp.besselkR (n + fin (1 / 2)) z) * (← mp.sqrt (← mp.pi /. (2 * z)))

/-- `_wright_bessel.py` 5-12: ValueError from `mp.gamma` (a pole) is caught. -/
noncomputable def wrightTerm (k : ℕ) (z rho beta : Num) : M Num := do
  let numer ← mp.power z (fin (k : ℝ))
  match mp.gammaReal (fin (k : ℝ) * rho + beta) with
  | .error .valueError => return 0
  | .error e => throw e
  | .ok g => numer /. (g * (← mp.factorial k))

/-- `_wright_bessel.py` 48-51. -/
noncomputable def wrightGamma (beta : Num) : M Num :=
  match mp.gammaReal beta with
  | .error .valueError => return pinf
  | r => r

/-- `_wright_bessel.py` 16-65. -/
noncomputable def wrightBessel (z rho beta : Num) : M Num := do
  if rho ≤ -1 then
    throw .valueError
  let g ← wrightGamma beta
  if z =. 0 then
    1 /. g
  else if rho =. 0 then
    mp.exp z /. g
  else if rho =. 1 then
    let rootz ← mp.sqrt z
    return (← mp.power rootz (1 - beta)) * (← mp.besseliR (beta - 1) (2 * rootz))
  else
    mp.nsum (fun k => wrightTerm k z rho beta) 0

/-- `_debye.py` 39-44. -/
noncomputable def debyeIntegrand (n : ℤ) (t : Num) : M Num := do
  if t =. 0 then
    return if n = 1 then 1 else 0
  else
    mp.ipow t n.toNat /. mp.expm1 t

/-- `_debye.py` 50-52. -/
noncomputable def debyeTerm (x : Num) (n : ℤ) (k : ℕ) : M Num := do
  let twok : Num := fin ((2 * k : ℕ) : ℝ)
  return (← (← mp.bernoulli (2 * k) /. (twok + ofInt n)) /. (← mp.factorial (2 * k : ℕ))) * mp.ipow x (2 * k)

/-- `_debye.py` 5-54, for an integer `n`. -/
noncomputable def debye (x : Num) (n : ℤ) (method : String := "quad") : M Num := do
  if n < 1 then
    throw .valueError
  else if ¬ (method = "quad" ∨ method = "nsum") then
    throw .valueError
  else if x =. 0 then
    return 1
  else if method = "quad" then
    (ofInt n * (← mp.quad (debyeIntegrand n) 0 x)) /. mp.ipow x n.toNat
  else
    return 1 - (← (ofInt n * x) /. (2 * (ofInt n + 1))) + ofInt n * (← mp.nsum (debyeTerm x n) 1)

/-- `_marcumq.py` 8-10. -/
noncomputable def marcumIntegrand (x m a : Num) : M Num := do
  let e2 := mp.exp (← (-(mp.ipow x 2 + mp.ipow a 2)) /. 2)
  return x * (← mp.power (← x /. a) (m - 1)) * e2 * (← mp.besseliR (m - 1) (a * x))

/-- `_marcumq.py` 13-52. -/
noncomputable def marcumq (m a b : Num) : M Num := do
  if a =. 0 then
    if m =. 1 then
      return mp.exp (← (-(mp.ipow b 2)) /. 2)
    else
      mp.gammaincUpperReg m (← mp.ipow b 2 /. 2)
  else if b =. 0 ∧ m > 0 then
    return 1
  else
    mp.quad (fun x => marcumIntegrand x m a) b pinf

/-- `_marcumq.py` 69-90. -/
noncomputable def cmarcumq (m a b : Num) : M Num := do
  if a =. 0 then
    if m =. 1 then
      return -(mp.expm1 (← (-(mp.ipow b 2)) /. 2))
    else
      mp.gammaincLowerReg m (← mp.ipow b 2 /. 2)
  else if b =. 0 ∧ m > 0 then
    return 0
  else
    mp.quad (fun x => marcumIntegrand x m a) 0 b

end Mpsci.fun_
