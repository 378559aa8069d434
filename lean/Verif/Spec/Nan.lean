import Verif.Spec

/-! The word C76 is stated in. -/

namespace Mpsci.Spec

open Num

/-- C76: called with `nan`, `f` returns `nan`. -/
def NanToNan (f : Num → M Num) : Prop := f nan = .ok nan

end Mpsci.Spec
