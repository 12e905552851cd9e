import Verif.Model.Threads
import Verif.Model.World

/-!
Threads that call the public interface on buffers of their own. What a thread does between two accesses to the shared matrix
cache is one step, because nobody else sees it; the accesses to the cache are the small steps of `Model/Threads`.
-/

namespace WB

variable {α : Type}

/-- What a thread has for itself: its `WaveletBuffer` objects and the `Impl` objects they own. -/
structure Own (α : Type) where
  heap : List (Buffer α)
  handles : List Slot

/-- The buffers of a process. -/
def World.own (w : World α) : Own α := ⟨w.heap, w.handles⟩

/-- The same buffers with nothing in the cache. -/
def Own.world (o : Own α) : World α := ⟨⟨[], []⟩, o.heap, o.handles⟩

/-- The effect of a call on the buffers, and the reply. -/
def ownEffect (r : Option (World α × Reply α)) : Option (Own α × Reply α) := r.map fun x => (x.1.own, x.2)

/-- A call up to the point where it asks the cache: it ends without asking (`none` is undefined behaviour), or it asks and
goes on with the answer. -/
inductive Begun (α : Type) where
  | ends (r : Option (Own α × Reply α))
  | asks (q : Req) (rest : Outcome (Stack α) → Option (Own α × Reply α))

section
variable [Zero α] [Add α] [Mul α] [Neg α] [Inhabited α]

/-- `DecomposeImpl`, sources/wavelet_utils.cc:228-296: the cache is asked (line 263) for 2D signals that passed the checks. -/
def Own.beginDecompose (k : Kit α) (o : Own α) (a : ℕ) (b : Buffer α) (data : List (Mat α)) (den : Denoiser α)
    (start count : ℤ) : Begun α :=
  let go (st : Outcome (Stack α)) :=
    ownEffect (o.world.update a b (o.world.cache, decomposeImpl k st b.params b.decs data den start count))
  if b.params.dimension = 2 ∧ (shapeCheck b.params data count matches .ok true) then .asks (.plain b.params) go
  else .ends (go (.ok []))

/-- `ComposeImpl`, sources/wavelet_utils.cc:356-413 and 415-435: the cache is asked (line 370) for 2D signals. `f` is what
the caller makes of the signals. -/
def Own.beginCompose (k : Kit α) (o : Own α) (b : Buffer α) (scale start count : ℤ)
    (f : List (Mat α) → Outcome (Reply α)) : Begun α :=
  let go (st : Outcome (Stack α)) :=
    ownEffect (o.world.query (o.world.cache, composeImpl k st b.params b.decs scale start count >>= f))
  if b.params.dimension = 2 ∧ ¬ count < 0 then .asks (.transposed b.params) go
  else .ends (go (.ok []))

/-- The start of a call. Calls that do not decompose or compose are those of `World.step`; the others are the ones of
`World.step` with the cache request taken out: sources/wavelet_buffer.cc:96-140, sources/wavelet_buffer_view.cc:25-38. -/
def Own.start (k : Kit α) (o : Own α) : Op α → Begun α
  | .decompose h data den =>
    match o.world.find h with
    | some (a, b) => o.beginDecompose k a b data den 0 b.params.signalNumber
    | none => .ends none
  | .decompose1 h data den =>
    match o.world.find h with
    | some (a, b) => o.beginDecompose k a b [Mat.ofCol data] den 0 1
    | none => .ends none
  | .compose h scale =>
    match o.world.find h with
    | some (_, b) => o.beginCompose k b scale 0 b.params.signalNumber fun ms => pure (.signals (some ms))
    | none => .ends none
  | .compose1 h scale =>
    match o.world.find h with
    | some (_, b) => o.beginCompose k b scale 0 b.params.signalNumber fun ms =>
        rd ms 0 >>= fun m => column0 m >>= fun v => pure (.vector v)
    | none => .ends none
  | .viewDecompose h v data den =>
    match o.world.find h with
    | some (a, b) =>
      match v.checkRange b.params.signalNumber with
      | .ok true => if v.isConst then .ends none else o.beginDecompose k a b data den v.start v.count
      | .ok false => .ends (some (o, .bool false))
      | _ => .ends none
    | none => .ends none
  | .viewCompose h v scale =>
    match o.world.find h with
    | some (_, b) =>
      match v.checkRange b.params.signalNumber with
      | .ok true => o.beginCompose k b scale v.start v.count fun ms => pure (.signals (some ms))
      | .ok false => .ends (some (o, .signals none))
      | _ => .ends none
    | none => .ends none
  | op => .ends (ownEffect (o.world.step k op))

end

/-- What a thread will do: its next call, decided from the buffers it has and the replies it has got; `none` when it is
finished. Any program that keeps to its own buffers is of this form. -/
abbrev Prog (α : Type) := Own α → List (Reply α) → Option (Op α)

/-- Between two calls, in a call that has asked the cache, or after undefined behaviour. -/
inductive Doing (α : Type) where
  | free
  | waiting (rest : Outcome (Stack α) → Option (Own α × Reply α))
  | crashed

/-- A thread with its buffers and the replies it has got. -/
structure Client (α : Type) where
  own : Own α
  replies : List (Reply α)
  doing : Doing α

/-- The process: the shared cache with the threads' positions in it, and what each thread has for itself. -/
structure Process (α : Type) (n : ℕ) where
  shared : Shared α n
  clients : Fin n → Client α

variable {n : ℕ}

/-- Replace client `i`. -/
def Process.setClient (s : Process α n) (i : Fin n) (c : Client α) : Process α n :=
  { s with clients := Function.update s.clients i c }

/-- A call of client `i` is over. -/
def Process.reply (s : Process α n) (i : Fin n) (r : Option (Own α × Reply α)) : Process α n :=
  match r with
  | some (o, x) => s.setClient i ⟨o, (s.clients i).replies ++ [x], .free⟩
  | none => s.setClient i { s.clients i with doing := .crashed }

/-- The thread asks the cache. -/
def Thread.push (t : Thread α) (q : Req) : Thread α := { t with todo := t.todo ++ [q] }

/-- One step of thread `i`; `none` when it is blocked, finished or crashed. -/
def Process.step [Zero α] [Add α] [Mul α] [Neg α] [Inhabited α] (k : Kit α) (progs : Fin n → Prog α) (s : Process α n) (i : Fin n) :
    Option (Process α n) :=
  match (s.clients i).doing with
  | .crashed => none
  | .free =>
    match progs i (s.clients i).own (s.clients i).replies with
    | none => none
    | some op =>
      match (s.clients i).own.start k op with
      | .ends r => some (s.reply i r)
      | .asks q rest =>
        some { shared := s.shared.setThread i ((s.shared.threads i).push q),
               clients := Function.update s.clients i { s.clients i with doing := .waiting rest } }
  | .waiting rest =>
    match (s.shared.threads i).pc, (s.shared.threads i).todo with
    | .idle, [] =>
      match (s.shared.threads i).results.getLast? with
      | none => none
      | some x => some (s.reply i (rest x))
    | _, _ =>
      match s.shared.step k i with
      | none => none
      | some sh => some { s with shared := sh }

/-- The moment threads with these buffers start in a process with this cache. -/
def Process.start (c : Cache α) (own : Fin n → Own α) : Process α n :=
  ⟨⟨c.main, c.trans, none, none, fun _ => ⟨.idle, [], []⟩⟩, fun i => ⟨own i, [], .free⟩⟩

/-- Start of the process: empty cache, no buffers, no calls. -/
def Process.init : Process α n := Process.start ⟨[], []⟩ fun _ => ⟨[], []⟩

end WB
