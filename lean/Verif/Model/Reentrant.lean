import Verif.Model.Clients

/-!
`Decompose` with a denoiser that calls the library while it runs: `DecomposeImpl` calls it (sources/wavelet_utils.cc:178-180 and 203) in the middle of its work on the
subbands of the buffer, which are then partly old and partly new. The denoisers passed in such inner calls are ordinary ones.
-/

namespace WB

variable {α β σ : Type}

/-- What a function written by the user does: calls of the library, each chosen after the replies to the ones before it, and then its result. -/
inductive Script (α β : Type) where
  | done (r : β)
  | call (op : Op α) (next : Reply α → Script α β)

/-- An implementation of `DenoiseAlgorithm`, wavelet_buffer/denoise_algorithms.h:16-33, with a state and with calls of the library. -/
structure Nested (σ α : Type) where
  d1 : σ → List α → ℕ → Script α (σ × Outcome (List α))
  d2 : σ → Mat α → ℕ → Script α (σ × Outcome (Mat α))

/-- The state in the middle of `Decompose`: whether this thread holds the mutex of the cache, the state of the denoiser, and the process. -/
structure Site (σ α : Type) where
  held : Bool
  own : σ
  world : World α

section
variable [Zero α] [Add α] [Mul α] [Neg α] [Inhabited α]

/-- The execution of a script. Locking a `std::mutex` that the thread holds already (sources/wavelet_utils.cc:39 and 70) is undefined behaviour. -/
def Script.exec (k : Kit α) (held : Bool) : World α → Script α β → Option (World α × β)
  | w, .done r => some (w, r)
  | w, .call op next =>
    if held && (w.own.start k op matches .asks _ _) then none
    else
      match w.step k op with
      | none => none
      | some (w', r) => Script.exec k held w' (next r)

/-- One call of the denoiser. -/
def Site.ask (k : Kit α) (st : Site σ α) (sc : Script α (σ × Outcome β)) : Run (Site σ α) β :=
  match sc.exec k st.held st.world with
  | some (w, s, .ok x) => .ok ⟨st.held, s, w⟩ x
  | some (w, s, .throw) => .throw ⟨st.held, s, w⟩
  | some (_, _, .ub) => .ub
  | none => .ub

/-- `decompositions_[ch][idx] = m` of the `Impl` at address `a`: undefined behaviour if nobody owns it any more, because it has been destroyed. -/
def Site.put (a : ℕ) (st : Site σ α) (ch idx : ℕ) (m : Mat α) : Run (Site σ α) Unit :=
  if Slot.holds a ∈ st.world.handles then
    match st.world.heap[a]? with
    | some b =>
      match setSub b.decs ch idx m with
      | .ok d u => .ok { st with world := { st.world with heap := st.world.heap.set a { b with decs := d } } } u
      | .throw _ => .throw st
      | .ub => .ub
    | none => .ub
  else .ub

/-- `CalculateOneSideStep1D`, sources/wavelet_utils.cc:192-207. -/
def oneSideStep1DIn (k : Kit α) (a : ℕ) (st : Site σ α) (ch dest : ℕ) (nd : Nested σ α) (lo hi : List α) (signal : Mat α) (step : ℕ) : Run (Site σ α) (Mat α) :=
  (Run.lift st (do let x ← column0 signal; dwt x lo hi)).bind fun st r =>
    (st.ask k (nd.d1 st.own r.2 step)).bind fun st v =>
    if v.length ≠ r.2.length then .throw st
    else (st.put a ch (dest + 0) (Mat.ofCol v)).bind fun st _ => .ok st (Mat.ofCol r.1)

/-- `CalculateOneSideStep2D`, sources/wavelet_utils.cc:170-183. -/
def oneSideStep2DIn (k : Kit α) (a : ℕ) (st : Site σ α) (ch dest : ℕ) (nd : Nested σ α) (mats : List (SpMat α)) (signal : Mat α) (step : ℕ) : Run (Site σ α) (Mat α) :=
  (Run.lift st (do let w ← rd mats 0; let h ← rd mats 1; dwt2 signal w h)).bind fun st q =>
    (st.ask k (nd.d2 st.own q.lh step)).bind fun st m => (st.put a ch (dest + 0) m).bind fun st _ =>
    (st.ask k (nd.d2 st.own q.hl step)).bind fun st m => (st.put a ch (dest + 1) m).bind fun st _ =>
    (st.ask k (nd.d2 st.own q.hh step)).bind fun st m => (st.put a ch (dest + 2) m).bind fun st _ =>
    .ok st q.ll

/-- The loop over the steps of one channel, sources/wavelet_utils.cc:279-291, as `decomposeSteps`. -/
def decomposeStepsIn (k : Kit α) (a : ℕ) (p : Params) (stack : Stack α) (f : Filters α) (nd : Nested σ α) (ch : ℕ) :
    ℕ → Site σ α → Mat α → Run (Site σ α) (Mat α)
  | 0, st, signal => .ok st signal
  | rem + 1, st, signal =>
    let step := p.steps - (rem + 1)
    let dest := step * subbandsPerWT p
    let r := if p.dimension = 1 then
        oneSideStep1DIn k a st ch dest nd f.loD.reverse f.hiD.reverse signal step
      else
        (Run.lift st (rd stack step)).bind fun st mats => oneSideStep2DIn k a st ch dest nd mats signal step
    r.bind fun st signal => decomposeStepsIn k a p stack f nd ch rem st signal

/-- The loop over the channels, sources/wavelet_utils.cc:276-294, as `decomposeChannels`. -/
def decomposeChannelsIn (k : Kit α) (a : ℕ) (p : Params) (stack : Stack α) (f : Filters α) (nd : Nested σ α) (data : List (Mat α)) (start : ℕ) :
    List ℕ → Site σ α → Run (Site σ α) Bool
  | [], st => .ok st true
  | ch :: chs, st =>
    (Run.lift st (do let m ← rd data (ch - start); addPadding m (paddedShape p))).bind fun st channel =>
    (decomposeStepsIn k a p stack f nd ch p.steps st channel).bind fun st channel =>
    (st.put a ch (p.steps * subbandsPerWT p) channel).bind fun st _ =>
    decomposeChannelsIn k a p stack f nd data start chs st

/-- `matrix_cache.GenerateMatrices` and the copy of its result, sources/wavelet_utils.cc:37-60 and 263: the mutex is locked, held while the matrices are looked up or built,
and released at the end of the function. -/
def Site.matrices (k : Kit α) (p : Params) (st : Site σ α) : Run (Site σ α) (Stack α) :=
  if st.held then .ub
  else
    let locked := { st with held := true }
    let r := cacheResult locked.world.cache (locked.world.cache.genMatrices k (paddedShape p) p)
    let released := { locked with held := false, world := { locked.world with cache := r.1 } }
    Run.lift released r.2

/-- `DecomposeImpl`, sources/wavelet_utils.cc:233-297, as `decomposeImpl`, on the `Impl` at address `a`. -/
def decomposeImplIn (k : Kit α) (a : ℕ) (p : Params) (st : Site σ α) (data : List (Mat α)) (nd : Nested σ α) (start count : ℤ) : Run (Site σ α) Bool :=
  (Run.lift st (shapeCheck p data count)).bind fun st good =>
  if good then
    (if p.dimension = 2 then st.matrices k p else .ok st []).bind fun st stack =>
    decomposeChannelsIn k a p stack (filters1D k p) nd data start.toNat (loopChannels start count) st
  else .ok st false

/-- `Decompose(const SignalN2D&)`, sources/wavelet_buffer.cc:96-100, with a denoiser that calls the library. `none` is undefined behaviour. -/
def World.decomposeNested (k : Kit α) (w : World α) (h : ℕ) (data : List (Mat α)) (nd : Nested σ α) (s : σ) : Option (σ × World α × Reply α) :=
  match w.find h with
  | none => none
  | some (a, b) =>
    match decomposeImplIn k a b.params ⟨false, s, w⟩ data nd 0 b.params.signalNumber with
    | .ok st x => some (st.own, st.world, .bool x)
    | .throw st => some (st.own, st.world, .threw)
    | .ub => none

end

end WB
