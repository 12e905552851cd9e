import Verif.Model.Clients

/-!
Threads that work on different channels of one buffer at the same time, through views or through the buffer itself.

The calls of `Model/Transform.lean` are written here as sequences of accesses to the common decomposition: every assignment
to a subband, every visit of a channel and every step in the matrix cache is a step of its own, and steps of different threads
interleave freely. What happens between two accesses uses only data of the thread.
-/

namespace WB

variable {α β γ : Type}

/-- A call as the sequence of its accesses to what is common: the matrix cache (`ask`) and the decomposition of the buffer
(`read` of a channel, `write` of a subband). It ends with a reply, an exception or undefined behaviour. -/
inductive Acc (α β : Type) where
  | done (x : β)
  | fail
  | bad
  | ask (q : Req) (rest : Outcome (Stack α) → Acc α β)
  | read (ch : ℕ) (rest : Channel α → Acc α β)
  | write (ch idx : ℕ) (m : Mat α) (rest : Acc α β)

/-- A computation on data of the thread, then the rest. -/
def Acc.calc (x : Outcome γ) (rest : γ → Acc α β) : Acc α β :=
  match x with
  | .ok a => rest a
  | .throw => .fail
  | .ub => .bad

section
variable [Zero α] [Add α] [Mul α] [Inhabited α]

/-- `CalculateOneSideStep1D`, sources/wavelet_utils.cc:192-207, as `oneSideStep1D`. -/
def accStep1D (ch dest : ℕ) (den : Denoiser α) (lo hi : List α) (signal : Mat α) (step : ℕ) (rest : Mat α → Acc α β) : Acc α β :=
  .calc (do let x ← column0 signal; dwt x lo hi) fun r =>
    if (den.d1 r.2 step).length ≠ r.2.length then .fail
    else .write ch (dest + 0) (Mat.ofCol (den.d1 r.2 step)) (rest (Mat.ofCol r.1))

/-- `CalculateOneSideStep2D`, sources/wavelet_utils.cc:170-183, as `oneSideStep2D`. -/
def accStep2D (ch dest : ℕ) (den : Denoiser α) (mats : List (SpMat α)) (signal : Mat α) (step : ℕ) (rest : Mat α → Acc α β) : Acc α β :=
  .calc (do let w ← rd mats 0; let h ← rd mats 1; dwt2 signal w h) fun q =>
    .write ch (dest + 0) (den.d2 q.lh step) (.write ch (dest + 1) (den.d2 q.hl step) (.write ch (dest + 2) (den.d2 q.hh step) (rest q.ll)))

/-- The loop over the steps of one channel, sources/wavelet_utils.cc:279-291, as `decomposeSteps`. -/
def accSteps (p : Params) (stack : Stack α) (f : Filters α) (den : Denoiser α) (ch : ℕ) (rest : Mat α → Acc α β) :
    ℕ → Mat α → Acc α β
  | 0, signal => rest signal
  | rem + 1, signal =>
    let step := p.steps - (rem + 1)
    let dest := step * subbandsPerWT p
    if p.dimension = 1 then
      accStep1D ch dest den f.loD.reverse f.hiD.reverse signal step (accSteps p stack f den ch rest rem)
    else
      .calc (rd stack step) fun mats => accStep2D ch dest den mats signal step (accSteps p stack f den ch rest rem)

/-- The loop over the channels, sources/wavelet_utils.cc:276-294, as `decomposeChannels`. -/
def accChannels (p : Params) (stack : Stack α) (f : Filters α) (den : Denoiser α) (data : List (Mat α)) (start : ℕ)
    (rest : Acc α β) : List ℕ → Acc α β
  | [] => rest
  | ch :: chs =>
    .calc (do let m ← rd data (ch - start); addPadding m (paddedShape p)) fun channel =>
    accSteps p stack f den ch (fun last => .write ch (p.steps * subbandsPerWT p) last
      (accChannels p stack f den data start rest chs)) p.steps channel

variable [Neg α]

/-- `DecomposeImpl`, sources/wavelet_utils.cc:233-297, as `decomposeImpl`: the cache is asked in 2D only and after the shape
checks (261-264). -/
def accDecompose (k : Kit α) (p : Params) (data : List (Mat α)) (den : Denoiser α) (start count : ℤ) (rest : Bool → Acc α β) :
    Acc α β :=
  .calc (shapeCheck p data count) fun good =>
  if good then
    if p.dimension = 2 then
      .ask (.plain p) fun x => .calc x fun stack =>
        accChannels p stack (filters1D k p) den data start.toNat (rest true) (loopChannels start count)
    else accChannels p [] (filters1D k p) den data start.toNat (rest true) (loopChannels start count)
  else rest false

/-- The loop over the steps of one channel, sources/wavelet_utils.cc:395-405, as `composeSteps`: every step looks at the
channel in the buffer. -/
def accComposeSteps (p : Params) (tstack : Stack α) (f : Filters α) (ch : ℕ) (rest : Mat α → Acc α β) : ℕ → ℕ → Mat α → Acc α β
  | 0, _, m => rest m
  | n + 1, i, m =>
    .read ch fun c =>
    .calc (do let mats ← stepMats p tstack (i - 1); composeStep p.dimension f mats m c (i * subbandsPerWT p)) fun m =>
    accComposeSteps p tstack f ch rest n (i - 1) m

/-- The channel loop of the inner `ComposeImpl`, sources/wavelet_utils.cc:388-409, as `composeChannel` of every channel: the
approximation is read (392-393), then the steps follow. The copy at line 391, of which only the number of subbands is used
later, is the first read. -/
def accComposeChannels (p : Params) (tstack : Stack α) (f : Filters α) (scale : ℕ) (rest : List (Mat α) → Acc α β) :
    List ℕ → List (Mat α) → Acc α β
  | [], out => rest out
  | ch :: chs, out =>
    .read ch fun _ => .read ch fun c =>
    .calc (rd c (p.steps * subbandsPerWT p)) fun m =>
    accComposeSteps p tstack f ch (fun m => accComposeChannels p tstack f scale rest chs (out ++ [m])) (p.steps - scale) p.steps m

/-- `ComposeImpl` once the matrices are there, sources/wavelet_utils.cc:376-440, as in `composeImpl`. -/
def accComposeRest (k : Kit α) (p : Params) (scale start count : ℤ) (rest : List (Mat α) → Acc α β) (tstack : Stack α) : Acc α β :=
  if start < 0 ∧ 0 < count then .bad
  else if scale < 0 ∧ 0 < count then (if p.dimension = 1 ∧ scale = -1 then .bad else .fail)
  else accComposeChannels p tstack (filters1D k p) scale.toNat
    (fun ms => .calc (ms.mapM (finishChannel k p scale.toNat)) rest) (loopChannels start count) []

/-- `ComposeImpl`, sources/wavelet_utils.cc:361-440, as `composeImpl`: the cache is asked in 2D only (371-374). -/
def accCompose (k : Kit α) (p : Params) (scale start count : ℤ) (rest : List (Mat α) → Acc α β) : Acc α β :=
  if count < 0 then .fail
  else if p.dimension = 2 then .ask (.transposed p) fun x => .calc x (accComposeRest k p scale start count rest)
  else accComposeRest k p scale start count rest []

end

/-- The copying loop of `CastToBuffer`, sources/wavelet_buffer_view.cc:49-52. -/
def accCast (start : ℤ) (rest : Decs α → Acc α β) : List ℕ → Decs α → Acc α β
  | [], out => rest out
  | ch :: chs, out =>
    if 0 ≤ (ch : ℤ) + start then .read ((ch : ℤ) + start).toNat fun c => accCast start rest chs (out ++ [c]) else .bad

/-- What a thread can do with the common buffer. -/
inductive CrewOp (α : Type) where
  /-- `buffer.Decompose(data, den)` -/
  | decompose (data : List (Mat α)) (den : Denoiser α)
  /-- `buffer.Compose(&data, scale)` -/
  | compose (scale : ℤ)
  /-- `view.Decompose(data, den)` -/
  | viewDecompose (v : View) (data : List (Mat α)) (den : Denoiser α)
  /-- `view.Compose(&data, scale)` -/
  | viewCompose (v : View) (scale : ℤ)
  /-- `WaveletBuffer(view)` -/
  | cast (v : View)
  /-- `buffer[ch][idx] = m`, also through `view.decompositions()` -/
  | write (ch idx : ℕ) (m : Mat α)
  /-- a copy of `buffer[ch]` -/
  | read (ch : ℕ)

/-- What the call returns. -/
inductive CrewReply (α : Type) where
  | done
  | threw
  | bool (x : Bool)
  | signals (x : Option (List (Mat α)))
  | buffer (b : Buffer α)
  | channel (c : Channel α)

variable [Zero α] [Add α] [Mul α] [Neg α] [Inhabited α]

/-- The accesses of a call on a buffer with these parameters (sources/wavelet_buffer.cc:96-101 and 121-125, sources/wavelet_buffer_view.cc:25-55). -/
def CrewOp.acc (k : Kit α) (p : Params) : CrewOp α → Acc α (CrewReply α)
  | .decompose data den => accDecompose k p data den 0 p.signalNumber fun x => .done (.bool x)
  | .compose scale => accCompose k p scale 0 p.signalNumber fun ms => .done (.signals (some ms))
  | .viewDecompose v data den =>
    .calc (v.checkRange p.signalNumber) fun good =>
      if good then (if v.isConst then .bad else accDecompose k p data den v.start v.count fun x => .done (.bool x))
      else .done (.bool false)
  | .viewCompose v scale =>
    .calc (v.checkRange p.signalNumber) fun good =>
      if good then accCompose k p scale v.start v.count fun ms => .done (.signals (some ms))
      else .done (.signals none)
  | .cast v =>
    if v.count < 0 then .fail
    else .calc (ctor { p with signalNumber := v.count.toNat } : Outcome (Buffer α)) fun nb =>
      accCast v.start (fun chs => .done (.buffer { nb with decs := chs })) (List.range v.count.toNat) []
  | .write ch idx m => .write ch idx m (.done .done)
  | .read ch => .read ch fun c => .done (.channel c)

/-- What a thread will do: its next call, decided from the replies it has got; `none` when it is finished. -/
abbrev CrewProg (α : Type) := List (CrewReply α) → Option (CrewOp α)

/-- Between two calls, in a call, in a call that has asked the cache, or after undefined behaviour. -/
inductive CrewDoing (α : Type) where
  | free
  | inCall (a : Acc α (CrewReply α))
  | asking (rest : Outcome (Stack α) → Acc α (CrewReply α))
  | crashed

/-- A thread: the replies it has got and where it is. -/
structure Hand (α : Type) where
  replies : List (CrewReply α)
  doing : CrewDoing α

/-- The common buffer, the cache, and the threads. The parameters of the buffer do not change. -/
structure Crew (α : Type) (n : ℕ) where
  shared : Shared α n
  decs : Decs α
  hands : Fin n → Hand α

variable {n : ℕ}

/-- Thread `i` goes on to another place in its call. -/
def Crew.goOn (s : Crew α n) (i : Fin n) (x : CrewDoing α) : Crew α n :=
  { s with hands := Function.update s.hands i { s.hands i with doing := x } }

/-- A call of thread `i` is over. -/
def Crew.reply (s : Crew α n) (i : Fin n) (x : CrewReply α) : Crew α n :=
  { s with hands := Function.update s.hands i ⟨(s.hands i).replies ++ [x], .free⟩ }

/-- One step of thread `i`; `none` when it is blocked, finished or crashed. Leaving the bounds of the decomposition is
undefined behaviour. -/
def Crew.step (k : Kit α) (p : Params) (progs : Fin n → CrewProg α) (s : Crew α n) (i : Fin n) : Option (Crew α n) :=
  match (s.hands i).doing with
  | .crashed => none
  | .free =>
    match progs i (s.hands i).replies with
    | none => none
    | some op => some (s.goOn i (.inCall (op.acc k p)))
  | .inCall (.done x) => some (s.reply i x)
  | .inCall .fail => some (s.reply i .threw)
  | .inCall .bad => some (s.goOn i .crashed)
  | .inCall (.ask q rest) => some ({ s with shared := s.shared.setThread i ((s.shared.threads i).push q) }.goOn i (.asking rest))
  | .inCall (.read ch rest) =>
    match s.decs[ch]? with
    | none => some (s.goOn i .crashed)
    | some c => some (s.goOn i (.inCall (rest c)))
  | .inCall (.write ch idx m rest) =>
    match setSub s.decs ch idx m with
    | .ok d _ => some ({ s with decs := d }.goOn i (.inCall rest))
    | _ => some (s.goOn i .crashed)
  | .asking rest =>
    match (s.shared.threads i).pc, (s.shared.threads i).todo with
    | .idle, [] =>
      match (s.shared.threads i).results.getLast? with
      | none => none
      | some x => some (s.goOn i (.inCall (rest x)))
    | _, _ =>
      match s.shared.step k i with
      | none => none
      | some sh => some { s with shared := sh }

/-- The moment the threads start on a buffer in a process with this cache. -/
def Crew.start (c : Cache α) (d : Decs α) : Crew α n :=
  ⟨⟨c.main, c.trans, none, none, fun _ => ⟨.idle, [], []⟩⟩, d, fun _ => ⟨[], .free⟩⟩

end WB
