import Verif.Base.Mp
import Verif.Base.Nsum

/-!
# `mpsci/distributions/nct.py`: the noncentral t distribution
-/

namespace Mpsci.nct

open Classical Num

/-- `[i*j for i, j in enumerate(l, start=k)]`, line 142. -/
def enumMul (k : ℤ) : List ℤ → List ℤ
  | [] => []
  | a :: l => k * a :: enumMul (k + 1) l

/-- The body of the loop of `_poly_coeffs`, lines 142–144. -/
def polyStep (c : List ℤ) : List ℤ :=
  List.zipWith (· + ·) (enumMul 1 (c.drop 1)) (0 :: c.take (c.length - 2)) ++ [0, 1]

/-- `_poly_coeffs(k)`, `nct.py` lines 128–145; coefficients in ascending order.  The
`lru_cache` is not modelled (nothing mutates the cached list). -/
def polyCoeffs (k : ℕ) : List ℤ :=
  if k = 0 then [1] else polyStep^[k - 1] [0, 1]

/-- `mp.polyval(c, x, asc=True)`; also what `mp.polyval(c[::-1], x)` computes. -/
noncomputable def polyvalAsc (c : List ℤ) (x : Num) : Num :=
  c.foldr (fun a acc => fin a + x * acc) 0

/-- `noncentral_moment(n, df, nc)`, `nct.py` lines 149–169, for an integer `n`. -/
noncomputable def noncentralMoment (n : ℤ) (df nc : Num) : M Num := do
  if n < 0 then throw .valueError
  if df ≤ fin n then return nan
  let c := polyCoeffs n.toNat
  let pval := polyvalAsc c nc
  let h ← fin n /. 2
  let l ← mp.log (← df /. 2)
  let g1 ← mp.loggamma (← (df - fin n) /. 2)
  let g2 ← mp.loggamma (← df /. 2)
  return mp.exp (h * l + g1 - g2) * pval

/-- `mean(df, nc)`, `nct.py` lines 102–113. -/
noncomputable def mean (df nc : Num) : M Num := do
  let l ← mp.log nc
  let l2 ← (← mp.log (← df /. 2)) /. 2
  let g1 ← mp.loggamma (← (df - 1) /. 2)
  let g2 ← mp.loggamma (← df /. 2)
  return mp.exp (l + l2 + g1 - g2)

/-- `var(df, nc)`, `nct.py` lines 117–125. -/
noncomputable def var (df nc : Num) : M Num := do
  let g1 ← mp.loggamma (← (df - 1) /. 2)
  let g2 ← mp.loggamma (← df /. 2)
  let c := mp.exp (g1 - g2)
  let q ← df /. (df - 2)
  let h ← df /. 2
  return q * (1 + mp.ipow nc 2) - h * mp.ipow nc 2 * mp.ipow c 2

/-- `mp.log(y)` for a real `y` as a complex number: real and imaginary part.  `mp.log(0)` is `-inf`. -/
noncomputable def clog : Num → Num × Num
  | fin y => if y = 0 then (ninf, 0) else (fin (Real.log |y|), if 0 < y then 0 else mp.pi)
  | pinf => (pinf, 0)
  | ninf => (pinf, mp.pi)
  | nan => (nan, 0)

/-- `_pdf_term(i)`, `nct.py` lines 48-53 and 82-87: the terms of the series are real parts of complex exponentials, as `x*nc` may be
negative; `exp(u + iw).real = exp(u)*cos(w)`. -/
noncomputable def pdfTerm (x df nc : Num) (i : ℕ) : M Num := do
  let (lr, li) := clog (x * nc)
  let re := (← mp.loggamma (← (df + fin i + 1) /. 2)) + fin i * lr + (← (fin i * (← mp.log (← 2 /. (df + mp.ipow x 2)))) /. 2) -
    (← mp.loggamma (fin i + 1))
  return mp.exp re * mp.cos (fin i * li)

/-- `nct.py` lines 34-38 and 70-74 -/
noncomputable def logpZero (df nc : Num) : M Num := do
  return (← (-(mp.ipow nc 2)) /. 2) - (← (← mp.log mp.pi) /. 2) - (← (← mp.log df) /. 2) + (← mp.loggamma (← (df + 1) /. 2)) -
    (← mp.loggamma (← df /. 2))

/-- `nct.py` lines 41-45 and 76-80 -/
noncomputable def logc (x df nc : Num) : M Num := do
  return (← (df * (← mp.log df)) /. 2) - (← mp.ipow nc 2 /. 2) - (← mp.loggamma (← df /. 2)) - (← (← mp.log mp.pi) /. 2) -
    (← (df + 1) /. 2) * (← mp.log (df + mp.ipow x 2))

/-- `pdf(x, df, nc)`, `nct.py` lines 22-57. -/
noncomputable def pdf (x df nc : Num) : M Num := do
  if x = 0 then
    return mp.exp (← logpZero df nc)
  else
    let c := mp.exp (← logc x df nc)
    let s ← mp.nsum (pdfTerm x df nc) 0
    return c * s

/-- `logpdf(x, df, nc)`, `nct.py` lines 60-91. -/
noncomputable def logpdf (x df nc : Num) : M Num := do
  if x = 0 then
    logpZero df nc
  else
    let c ← logc x df nc
    let s ← mp.nsum (pdfTerm x df nc) 0
    return c + (← mp.log s)

/-- `support(df, nc)`, `nct.py` lines 94-98. -/
noncomputable def support (_df _nc : Num) : M (Num × Num) := .ok (ninf, pinf)

end Mpsci.nct
