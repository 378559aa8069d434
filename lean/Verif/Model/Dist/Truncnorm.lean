import Verif.Model.Dist.Normal

/-! Model of `mpsci/distributions/truncnorm.py`. The ends `a` and `b` may be infinite. -/

namespace Mpsci.truncnorm

open Classical Num common

/-- `truncnorm.py` 19-22. -/
noncomputable def validate (a b : Num) : M (Num × Num) :=
  if a ≥ b then .error .valueError else .ok (a, b)

/-- `truncnorm.py` 25-44. -/
noncomputable def normDelta (a b : Num) : Num :=
  if Num.eq a b then 0
  else if Num.eq a ninf ∧ Num.eq b pinf then 1
  else if Num.eq a ninf then mp.ncdf b
  else if Num.eq b pinf then mp.ncdf (-a)
  else if a > 0 then mp.ncdf (-a) - mp.ncdf (-b)
  else mp.ncdf b - mp.ncdf a

/-- `truncnorm.py` 47-57. -/
noncomputable def pdf (x a b : Num) : M Num := do
  let (a, b) ← validate a b
  if x < a ∨ x > b then return 0
  let delta := normDelta a b
  (← mp.npdf x) /. delta

/-- `truncnorm.py` 60-70. -/
noncomputable def logpdf (x a b : Num) : M Num := do
  let (a, b) ← validate a b
  if x < a ∨ x > b then return ninf
  let delta := normDelta a b
  return (← normal.logpdf x) - (← mp.log delta)

/-- `truncnorm.py` 73-84. -/
noncomputable def cdf (x a b : Num) : M Num := do
  let (a, b) ← validate a b
  if x ≤ a then return 0
  if x ≥ b then return 1
  normDelta a x /. normDelta a b

/-- `truncnorm.py` 87-98. -/
noncomputable def sf (x a b : Num) : M Num := do
  let (a, b) ← validate a b
  if x ≤ a then return 1
  if x ≥ b then return 0
  normDelta x b /. normDelta a b

/-- `truncnorm.py` 101-112. -/
noncomputable def invcdf (p a b : Num) : M Num := do
  let p ← validateP p
  let (a, b) ← validate a b
  let p2 := p * normDelta a b + mp.ncdf a
  normal.invcdf p2

/-- `truncnorm.py` 115-123. -/
noncomputable def invsf (p a b : Num) : M Num := do
  let p ← validateP p
  let (a, b) ← validate a b
  let p2 := (-p) * normDelta a b + mp.ncdf b
  normal.invcdf p2

/-- `truncnorm.py` 126-132. -/
noncomputable def support (a b : Num) : M (Num × Num) := do
  let (a, b) ← validate a b
  return (a, b)

/-- `truncnorm.py` 135-141. -/
noncomputable def mean (a b : Num) : M Num := do
  let (a, b) ← validate a b
  return (← pdf a a b) - (← pdf b a b)

/-- `truncnorm.py` 144-150. -/
noncomputable def median (a b : Num) : M Num := do
  let (a, b) ← validate a b
  normal.invcdf (← ((← normal.cdf a) + (← normal.cdf b)) /. 2)

/-- `truncnorm.py` 153-162. -/
noncomputable def mode (a b : Num) : M Num := do
  let (a, b) ← validate a b
  if a ≥ 0 then return a
  if b ≤ 0 then return b
  return 0

/-- `truncnorm.py` 165-176. -/
noncomputable def var (a b : Num) : M Num := do
  let (a, b) ← validate a b
  let pa ← pdf a a b
  let pb ← pdf b a b
  let ta := if Num.eq pa 0 then 0 else a * pa
  let tb := if Num.eq pb 0 then 0 else b * pb
  return 1 + ta - tb - (pa - pb) * (pa - pb)

/-- `truncnorm.py` 203-206, the body of the loop, for `k = i + 3`; `result[k-3]` is always in range. -/
noncomputable def momentStep (a b : Num) (st : Num × Num × List Num) (i : ℕ) : Num × Num × List Num :=
  let apa := a * st.1
  let bpb := b * st.2.1
  (apa, bpb, st.2.2 ++ [fin ((i : ℝ) + 3 - 1) * st.2.2.getD i nan + apa - bpb])

/-- `truncnorm.py` 179-208. -/
noncomputable def noncentralMoments (n : ℕ) (a b : Num) : M (List Num) := do
  let (a, b) ← validate a b
  let pa ← pdf a a b
  let pb ← pdf b a b
  let a := if Num.eq pa 0 then 0 else a
  let b := if Num.eq pb 0 then 0 else b
  let apa := a * pa
  let bpb := b * pb
  let result := [pa - pb]
  let result := if n ≥ 2 then result ++ [1 + apa - bpb] else result
  return ((List.range (n - 2)).foldl (momentStep a b) (apa, bpb, result)).2.2

/-- `truncnorm.py` 211-226; a list of the wrong length cannot be unpacked (ValueError). -/
noncomputable def skewness (a b : Num) : M Num := do
  let (a, b) ← validate a b
  match ← noncentralMoments 3 a b with
  | [m1, m2, m3] =>
    let mu2 := m2 - m1 * m1
    let mu3 := m3 + m1 * ((-3) * m2 + 2 * (m1 * m1))
    mu3 /. (← mp.power mu2 (fin (3 / 2)))
  | _ => .error .valueError

/-- `truncnorm.py` 229-244. -/
noncomputable def kurtosis (a b : Num) : M Num := do
  let (a, b) ← validate a b
  match ← noncentralMoments 4 a b with
  | [m1, m2, m3, m4] =>
    let mu2 := m2 - m1 * m1
    let mu4 := m4 + m1 * ((-4) * m3 + 3 * m1 * (2 * m2 - m1 * m1))
    return (← mu4 /. (mu2 * mu2)) - 3
  | _ => .error .valueError

/-- `truncnorm.py` 247-250. -/
noncomputable def prodXNpdf (x : Num) : M Num :=
  if x = pinf ∨ x = ninf then .ok 0 else do
    return x * (← mp.npdf x)

/-- `truncnorm.py` 253-264. -/
noncomputable def entropy (a b : Num) : M Num := do
  let (a, b) ← validate a b
  let delta := normDelta a b
  let t1 := (← ((← mp.log (2 * mp.pi)) + 1) /. 2) + (← mp.log delta)
  let s1 ← prodXNpdf a
  let s2 ← prodXNpdf b
  let t2 ← (s1 - s2) /. (2 * delta)
  return t1 + t2

end Mpsci.truncnorm
