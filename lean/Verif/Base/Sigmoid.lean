import Verif.Base.Mp

/-! `mp.sigmoid`. -/

namespace Mpsci.mp

open Classical Num

/-- `mp.sigmoid(x) = 1/(1 + exp(-x))`. -/
noncomputable def sigmoid (x : Num) : M Num := 1 /. (1 + mp.exp (-x))

theorem sigmoid_fin (x : ℝ) : sigmoid (fin x) = .ok (fin (1 / (1 + Real.exp (-x)))) := by
  have h : (1 + Real.exp (-x)) ≠ 0 := by positivity
  simp only [sigmoid, one_def, neg_fin, mp.exp_fin, fin_add, fin_div _ h]

end Mpsci.mp
