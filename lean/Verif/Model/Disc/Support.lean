import Verif.Model.Disc.Poisson
import Verif.Model.Disc.NegBinomial
import Verif.Model.Disc.Logseries
import Verif.Model.Disc.GaussKuzmin

/-! Models of the `support` functions that return `itertools.count`.  An iterator is the sequence of the values of its successive `next` calls. -/

namespace Mpsci

open Classical

/-- `itertools.count(start)` -/
def py.count (start : ℤ) : ℕ → ℤ := fun i => start + i

/-- `_common.py` 36-42 `_validate_int`. -/
noncomputable def common.validateInt (k : Num) : M ℤ := do
  if ¬ k =. ofInt (← py.int k) then throw .valueError
  py.int k

/-- `poisson.py` 24-42 `support` -/
noncomputable def poisson.support (lam : Num) : M (ℕ → ℤ) := do
  let _ ← validateLam lam
  return py.count 0

/-- `negative_binomial.py` 35-52 `support` -/
noncomputable def negative_binomial.support (_r _p : Num) : M (ℕ → ℤ) := return py.count 0

/-- `logseries.py` 22-39 `support` -/
noncomputable def logseries.support (_p : Num) : M (ℕ → ℤ) := return py.count 1

/-- `gauss_kuzmin.py` 23-40 `support` -/
noncomputable def gauss_kuzmin.support : M (ℕ → ℤ) := return py.count 1

end Mpsci
