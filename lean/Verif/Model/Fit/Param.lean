import Verif.Base.Num

/-! How a parameter is given to an `mle` function. -/

namespace Mpsci

/-- A parameter of an `mle` function: `None`, `Initial(x)` (a starting value, `_common.py` 7-15) or a number, which
fixes the parameter (`_common.py` 18-19 `isfixed`, `pareto.py` 171-172 and `betaprime.py` 311-312 `_is_fixed`).  The data are
lists of numbers: `_common.py` 55-61 `_seq_to_mp` is the identity on them. -/
inductive Param
  | none
  | initial (x : Num)
  | fixed (x : Num)

/-- `p.initial if isinstance(p, Initial) else 1`. -/
noncomputable def Param.start : Param → Num
  | .initial x => x
  | _ => 1

end Mpsci
