import Verif.Model.Clients

/-!
Vocabulary for statements about threads with buffers of their own.
-/

namespace WB.Spec

variable {α : Type} {n : ℕ} [Zero α] [Add α] [Mul α] [Neg α] [Inhabited α]

/-- A schedule of threads that call the interface. -/
inductive Serves (k : Kit α) (progs : Fin n → Prog α) : Process α n → List (Fin n) → Process α n → Prop where
  | nil (s) : Serves k progs s [] s
  | cons {s s' s'' i l} : s.step k progs i = some s' → Serves k progs s' l s'' → Serves k progs s (i :: l) s''

/-- The program running alone, in a process that was in state `w0` at its start, can be in this state with these replies
between two calls. -/
inductive AloneFrom (k : Kit α) (w0 : World α) (prog : Prog α) : World α → List (Reply α) → Prop where
  | start : AloneFrom k w0 prog w0 []
  | call {w w' rs op r} : AloneFrom k w0 prog w rs → prog w.own rs = some op → w.step k op = some (w', r) →
      AloneFrom k w0 prog w' (rs ++ [r])

/-- The same in a new process. -/
abbrev Alone (k : Kit α) (prog : Prog α) (w : World α) (rs : List (Reply α)) : Prop := AloneFrom k World.init prog w rs

/-- No call is going on and no program has another one. -/
def AllFinished (progs : Fin n → Prog α) (s : Process α n) : Prop :=
  ∀ i, (s.clients i).doing = .free ∧ progs i (s.clients i).own (s.clients i).replies = none

/-- No thread can do anything. -/
def Stuck (k : Kit α) (progs : Fin n → Prog α) (s : Process α n) : Prop := ∀ i, s.step k progs i = none

end WB.Spec
