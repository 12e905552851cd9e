import Verif.Model.World

/-!
Vocabulary for statements about histories of calls.
-/

namespace WB.Spec

variable {α : Type}

/-- The process state can be reached from the start of the process by a history of calls without undefined behaviour. -/
def Reached [Zero α] [Add α] [Mul α] [Neg α] [Inhabited α] (k : Kit α) (w : World α) : Prop :=
  ∃ ops replies, World.init.run k ops = some (w, replies)

/-- The call replaces or ends the object behind handle `h`. -/
def Rebinds (h : ℕ) : Op α → Prop
  | .assign g _ => g = h
  | .move g => g = h
  | .moveAssign g g' => g = h ∨ g' = h
  | .destroy g => g = h
  | _ => False

/-- The call is one on handle `h` that may change the buffer behind it. -/
def Changes (h : ℕ) : Op α → Prop
  | .decompose g _ _ => g = h
  | .decompose1 g _ _ => g = h
  | .viewDecompose g _ _ _ => g = h
  | .write g _ _ _ => g = h
  | op => Rebinds h op

/-- The next handle that is created. -/
def fresh (w : World α) : ℕ := w.handles.length

end WB.Spec
