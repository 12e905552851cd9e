import Verif.Model.Program
import Verif.Spec.Growth

/-!
Vocabulary for statements about calls before and after `main`.
-/

namespace WB.Spec

variable {α : Type}

/-- The calls among the events. -/
def callsOf : List (Happening α) → List (Op α)
  | [] => []
  | .call op :: es => op :: callsOf es
  | _ :: es => callsOf es

/-- The call decomposes or composes a buffer for pictures. -/
def OnPicture (w : World α) (op : Op α) : Prop := ∃ h b, transforms op = some h ∧ w.content h = some b ∧ b.params.shape.length = 2

/-- The same buffers. -/
def SameBuffers (w v : World α) : Prop := w.heap = v.heap ∧ w.handles = v.handles

/-- Whether `matrix_cache` is there after an event. -/
def lifeAfter : Life → Happening α → Life
  | .before, .born => .during
  | .during, .gone => .after
  | l, _ => l

/-- No call outside the life of `matrix_cache` decomposes or composes anything; `l` says whether it is there at the start. -/
def Careful : Life → List (Happening α) → Prop
  | _, [] => True
  | l, e :: es => (l ≠ .during → ∀ op, e = .call op → transforms op = none) ∧ Careful (lifeAfter l e) es

/-- A state a program can get into from its start. -/
def Lives [Zero α] [Add α] [Mul α] [Neg α] [Inhabited α] (k : Kit α) (s : Program α) : Prop := ∃ es rs, Program.init.run k es = some (s, rs)

end WB.Spec
