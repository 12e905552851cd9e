import Verif.Model.Crew
import Verif.Spec.Clients

/-!
Vocabulary for statements about threads on one buffer.
-/

namespace WB.Spec

variable {α : Type} {n : ℕ}

/-- A channel of the view. -/
def InView (v : View) (ch : ℕ) : Prop := v.start ≤ (ch : ℤ) ∧ (ch : ℤ) < v.start + v.count

/-- The channels a call may assign to: all of them when the buffer is decomposed, those of the view when a view is. -/
def Assigns : CrewOp α → ℕ → Prop
  | .decompose _ _, _ => True
  | .viewDecompose v _ _, ch => InView v ch
  | .write c _ _, ch => ch = c
  | _, _ => False

/-- The channels a call may look at. -/
def LooksAt : CrewOp α → ℕ → Prop
  | .compose _, _ => True
  | .viewCompose v _, ch => InView v ch
  | .cast v, ch => InView v ch
  | .read c, ch => ch = c
  | _, _ => False

/-- The thread assigns only to the channels `W` and looks only at channels of `W` or `R`. -/
def KeepsTo (W R : ℕ → Prop) (prog : CrewProg α) : Prop :=
  ∀ rs op, prog rs = some op → ∀ ch, (Assigns op ch → W ch) ∧ (LooksAt op ch → W ch ∨ R ch)

/-- No thread may look at or assign to a channel that another may assign to. -/
def Apart (W R : Fin n → ℕ → Prop) : Prop := ∀ i j, i ≠ j → ∀ ch, W i ch → ¬ W j ch ∧ ¬ R j ch

variable [Zero α] [Add α] [Mul α] [Neg α] [Inhabited α]

/-- The call on a buffer nobody else uses: the new content of the buffer with the reply, `none` for undefined behaviour. -/
def CrewOp.call (k : Kit α) (b : Buffer α) : CrewOp α → Option (Decs α × CrewReply α)
  | .decompose data den =>
    match b.decompose k data den with
    | .ok d x => some (d, .bool x)
    | .throw d => some (d, .threw)
    | .ub => none
  | .compose scale =>
    match b.compose k scale with
    | .ok ms => some (b.decs, .signals (some ms))
    | .throw => some (b.decs, .threw)
    | .ub => none
  | .viewDecompose v data den =>
    match v.decompose k b data den with
    | .ok d x => some (d, .bool x)
    | .throw d => some (d, .threw)
    | .ub => none
  | .viewCompose v scale =>
    match v.compose k b scale with
    | .ok x => some (b.decs, .signals x)
    | .throw => some (b.decs, .threw)
    | .ub => none
  | .cast v =>
    match v.cast b with
    | .ok nb => some (b.decs, .buffer nb)
    | .throw => some (b.decs, .threw)
    | .ub => none
  | .write ch idx m =>
    match setSub b.decs ch idx m with
    | .ok d _ => some (d, .done)
    | _ => none
  | .read ch =>
    match b.decs[ch]? with
    | some c => some (b.decs, .channel c)
    | none => none

/-- The program as the only user of the buffer can have made it into `d` with these replies between two calls. -/
inductive CrewAlone (k : Kit α) (p : Params) (d0 : Decs α) (prog : CrewProg α) : Decs α → List (CrewReply α) → Prop where
  | start : CrewAlone k p d0 prog d0 []
  | call {d d' rs op r} : CrewAlone k p d0 prog d rs → prog rs = some op → CrewOp.call k ⟨p, d⟩ op = some (d', r) →
      CrewAlone k p d0 prog d' (rs ++ [r])

/-- A schedule of threads on one buffer. -/
inductive CrewServes (k : Kit α) (p : Params) (progs : Fin n → CrewProg α) : Crew α n → List (Fin n) → Crew α n → Prop where
  | nil (s) : CrewServes k p progs s [] s
  | cons {s s' s'' i l} : s.step k p progs i = some s' → CrewServes k p progs s' l s'' → CrewServes k p progs s (i :: l) s''

omit [Zero α] [Add α] [Mul α] [Neg α] [Inhabited α]

/-- The next step of the thread assigns to a subband of channel `ch`. -/
def Assigning (h : Hand α) (ch : ℕ) : Prop := ∃ idx m rest, h.doing = .inCall (.write ch idx m rest)

/-- The next step of the thread looks at channel `ch`. -/
def Looking (h : Hand α) (ch : ℕ) : Prop := ∃ rest, h.doing = .inCall (.read ch rest)

end WB.Spec
