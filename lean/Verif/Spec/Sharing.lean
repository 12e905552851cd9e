import Verif.Model.Sharing
import Verif.Spec.Clients

/-!
Vocabulary for statements about threads with common buffers.
-/

namespace WB.Spec

variable {α : Type} {n : ℕ}

/-- The buffers a call can change or take away: those on which it calls a member function that is not `const`. -/
def changed : Op α → List ℕ
  | .construct _ => []
  | .constructWith _ _ => []
  | .copy _ => []
  | .move h => [h]
  | .assign h _ => [h]
  | .moveAssign h g => [h, g]
  | .destroy h => [h]
  | .decompose h _ _ => [h]
  | .decompose1 h _ _ => [h]
  | .compose _ _ => []
  | .compose1 _ _ => []
  | .viewDecompose h _ _ _ => [h]
  | .viewCompose _ _ _ => []
  | .cast _ _ => []
  | .write h _ _ _ => [h]

/-- The program does not change the first `m` buffers. -/
def OnlyReads (m : ℕ) (prog : Prog α) : Prop := ∀ o rs op, prog o rs = some op → ∀ h ∈ changed op, m ≤ h

variable [Zero α] [Add α] [Mul α] [Neg α] [Inhabited α]

/-- A schedule of threads with common buffers. -/
inductive TeamServes (k : Kit α) (progs : Fin n → Prog α) : Team α n → List (Fin n) → Team α n → Prop where
  | nil (s) : TeamServes k progs s [] s
  | cons {s s' s'' i l} : s.step k progs i = some s' → TeamServes k progs s' l s'' → TeamServes k progs s (i :: l) s''

end WB.Spec
