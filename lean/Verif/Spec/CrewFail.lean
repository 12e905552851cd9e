import Verif.Model.CrewFail
import Verif.Spec.Crew

/-!
Vocabulary for statements about threads on one buffer that may run out of memory.
-/

namespace WB.Spec

variable {α : Type} {n : ℕ}

/-- A subband of a decomposition. -/
def At (d : Decs α) (ch idx : ℕ) : Option (Mat α) := (d[ch]?).bind fun c => c[idx]?

variable [Zero α] [Add α] [Mul α] [Neg α] [Inhabited α]

/-- What a call on a buffer nobody else uses can leave when it runs out of memory: as many channels and subbands as before,
nothing changed in channels the call does not assign to, and everywhere except in one place either the old subband or
the one the complete call stores. -/
def CutShort (k : Kit α) (b : Buffer α) (op : CrewOp α) (d' : Decs α) : Prop :=
  d'.map List.length = b.decs.map List.length ∧ (∀ ch, ¬ Assigns op ch → d'[ch]? = b.decs[ch]?) ∧
  ∃ ch0 idx0, ∀ ch idx, (ch, idx) ≠ (ch0, idx0) →
    At d' ch idx = At b.decs ch idx ∨ ∀ d r, CrewOp.call k b op = some (d, r) → At d' ch idx = At d ch idx

/-- The program as the only user of the buffer can have made it into `d` with these replies between two calls, of which `m` ran
out of memory. -/
inductive CrewShort (k : Kit α) (p : Params) (d0 : Decs α) (prog : CrewProg α) : ℕ → Decs α → List (CrewReply α) → Prop where
  | start : CrewShort k p d0 prog 0 d0 []
  | call {m d d' rs op r} : CrewShort k p d0 prog m d rs → prog rs = some op → CrewOp.call k ⟨p, d⟩ op = some (d', r) →
      CrewShort k p d0 prog m d' (rs ++ [r])
  | short {m d d' rs op} : CrewShort k p d0 prog m d rs → prog rs = some op → CutShort k ⟨p, d⟩ op d' →
      CrewShort k p d0 prog (m + 1) d' (rs ++ [.threw])

/-- A schedule of threads on one buffer: each entry tells the thread and whether its step ran out of memory. -/
inductive CrewRuns (k : Kit α) (p : Params) (progs : Fin n → CrewProg α) : Crew α n → List (Fin n × Bool) → Crew α n → Prop where
  | nil (s) : CrewRuns k p progs s [] s
  | step {s s' s'' i l} : s.step k p progs i = some s' → CrewRuns k p progs s' l s'' → CrewRuns k p progs s ((i, false) :: l) s''
  | fail {s s' s'' i l} : s.Fails i s' → CrewRuns k p progs s' l s'' → CrewRuns k p progs s ((i, true) :: l) s''

end WB.Spec
