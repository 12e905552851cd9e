import Verif.Spec.Generations

/-! Vocabulary for comparing archives written with different compression levels. -/

namespace WB.Spec

/-- `y` lies between 0 and `x`. -/
def Toward (x y : ℝ) : Prop := 0 ≤ y ∧ y ≤ x ∨ x ≤ y ∧ y ≤ 0

/-- `b'` has the parameters and the sizes of `b`, and every number of `b'` lies between 0 and the number of `b` in the same place. -/
def Shrunk (b b' : Buffer F32) : Prop :=
  b'.params = b.params ∧ List.Forall₂ (List.Forall₂ fun m m' => m'.rows = m.rows ∧ m'.cols = m.cols ∧
    ∀ i < m.rows, ∀ j < m.cols, Toward ((number (m.get i j) : ℚ) : ℝ) ((number (m'.get i j) : ℚ) : ℝ)) b.decs b'.decs

end WB.Spec
