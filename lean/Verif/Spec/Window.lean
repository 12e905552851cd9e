import Verif.Model.Lifetime

/-!
Vocabulary for statements about the channels that a view covers.
-/

namespace WB.Spec

open WB

/-- The arguments of a view are values of type `int`. -/
def IntView (v : View) : Prop := -2 ^ 31 ≤ v.start ∧ v.start < 2 ^ 31 ∧ -2 ^ 31 ≤ v.count ∧ v.count < 2 ^ 31

/-- The view covers channels of a buffer with this number of channels. -/
def Covers (v : View) (channels : ℕ) : Prop := 0 ≤ v.start ∧ 0 ≤ v.count ∧ v.start + v.count ≤ channels

/-- The process can get from the first state to the second. -/
inductive Later {α : Type} [Zero α] [Add α] [Mul α] [Neg α] [Inhabited α] (k : Kit α) (s : Scene α) : Scene α → Prop where
  | now : Later k s s
  | next {t t' x} (op : SceneOp α) : Later k s t → t.step k op = some (t', x) → Later k s t'

end WB.Spec
