import Verif.Model.Threads

/-!
Vocabulary for statements about schedules.
-/

namespace WB.Spec

variable {α : Type} {n : ℕ}

/-- A schedule: the threads that take the steps, one after the other. -/
inductive Runs [Neg α] (k : Kit α) : Shared α n → List (Fin n) → Shared α n → Prop where
  | nil (s) : Runs k s [] s
  | cons {s s' s'' i l} : s.step k i = some s' → Runs k s' l s'' → Runs k s (i :: l) s''

/-- All requests of all threads are served. -/
def AllServed (s : Shared α n) : Prop := ∀ i, (s.threads i).pc = .idle ∧ (s.threads i).todo = []

/-- The answer a fresh computation without any cache gives. -/
def freshAnswer [Neg α] (k : Kit α) : Req → Outcome (Stack α)
  | .plain p => freshStack k p
  | .transposed p => freshTrans k p

/-- The next step of the thread reads or changes the map of plain matrices. -/
def TouchesMain (t : Thread α) : Prop := t.pc matches .findMain .. | .insertMain ..

/-- The next step of the thread reads or changes the map of transposed matrices. -/
def TouchesTrans (t : Thread α) : Prop := t.pc matches .findTrans .. | .insertTrans ..

end WB.Spec
