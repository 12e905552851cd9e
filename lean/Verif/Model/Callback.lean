import Verif.Model.Buffer

/-!
`Decompose` with a denoiser written by the user: it may have a state of its own (counters, logs, other buffers) and it may throw.
-/

namespace WB

variable {α σ : Type}

/-- An implementation of `DenoiseAlgorithm`, wavelet_buffer/denoise_algorithms.h:16-33, with a state `σ` that its calls may read and change. The
functions are `const`, so the state is `mutable` or outside of the object. It does not contain the buffer that is being decomposed. -/
structure Callback (σ α : Type) where
  d1 : σ → List α → ℕ → σ × Outcome (List α)
  d2 : σ → Mat α → ℕ → σ × Outcome (Mat α)

/-- A denoiser that has no state and does not throw. -/
def Callback.of (den : Denoiser α) : Callback σ α := ⟨fun s v k => (s, .ok (den.d1 v k)), fun s m k => (s, .ok (den.d2 m k))⟩

/-- One call: an exception passes through, the state of the denoiser is what the call made of it. -/
def called {β : Type} (st : σ × Decs α) (r : σ × Outcome β) : Run (σ × Decs α) β :=
  match r with
  | (s, .ok x) => .ok (s, st.2) x
  | (s, .throw) => .throw (s, st.2)
  | (_, .ub) => .ub

/-- `setSub` beside the state of the denoiser. -/
def putSub (st : σ × Decs α) (ch idx : ℕ) (m : Mat α) : Run (σ × Decs α) Unit :=
  match setSub st.2 ch idx m with
  | .ok d u => .ok (st.1, d) u
  | .throw d => .throw (st.1, d)
  | .ub => .ub

/-- `CalculateOneSideStep1D`, sources/wavelet_utils.cc:192-207. -/
def oneSideStep1DWith [Zero α] [Add α] [Mul α] [Inhabited α] (st : σ × Decs α) (ch dest : ℕ) (cb : Callback σ α)
    (lo hi : List α) (signal : Mat α) (step : ℕ) : Run (σ × Decs α) (Mat α) :=
  (Run.lift st (do let x ← column0 signal; dwt x lo hi)).bind fun st r =>
    (called st (cb.d1 st.1 r.2 step)).bind fun st v =>
    if v.length ≠ r.2.length then .throw st
    else (putSub st ch (dest + 0) (Mat.ofCol v)).bind fun st _ => .ok st (Mat.ofCol r.1)

/-- `CalculateOneSideStep2D`, sources/wavelet_utils.cc:170-183. In an assignment the right-hand side is evaluated first. -/
def oneSideStep2DWith [Zero α] [Add α] [Mul α] [Inhabited α] (st : σ × Decs α) (ch dest : ℕ) (cb : Callback σ α)
    (mats : List (SpMat α)) (signal : Mat α) (step : ℕ) : Run (σ × Decs α) (Mat α) :=
  (Run.lift st (do let w ← rd mats 0; let h ← rd mats 1; dwt2 signal w h)).bind fun st q =>
    (called st (cb.d2 st.1 q.lh step)).bind fun st m => (putSub st ch (dest + 0) m).bind fun st _ =>
    (called st (cb.d2 st.1 q.hl step)).bind fun st m => (putSub st ch (dest + 1) m).bind fun st _ =>
    (called st (cb.d2 st.1 q.hh step)).bind fun st m => (putSub st ch (dest + 2) m).bind fun st _ =>
    .ok st q.ll

/-- The loop over the steps of one channel, sources/wavelet_utils.cc:279-291, as `decomposeSteps`. -/
def decomposeStepsWith [Zero α] [Add α] [Mul α] [Inhabited α] (p : Params) (stack : Stack α)
    (f : Filters α) (cb : Callback σ α) (ch : ℕ) : ℕ → σ × Decs α → Mat α → Run (σ × Decs α) (Mat α)
  | 0, st, signal => .ok st signal
  | rem + 1, st, signal =>
    let step := p.steps - (rem + 1)
    let dest := step * subbandsPerWT p
    let r := if p.dimension = 1 then
        oneSideStep1DWith st ch dest cb f.loD.reverse f.hiD.reverse signal step
      else
        (Run.lift st (rd stack step)).bind fun st mats => oneSideStep2DWith st ch dest cb mats signal step
    r.bind fun st signal => decomposeStepsWith p stack f cb ch rem st signal

/-- The loop over the channels, sources/wavelet_utils.cc:276-294, as `decomposeChannels`. -/
def decomposeChannelsWith [Zero α] [Add α] [Mul α] [Inhabited α] (p : Params) (stack : Stack α)
    (f : Filters α) (cb : Callback σ α) (data : List (Mat α)) (start : ℕ) :
    List ℕ → σ × Decs α → Run (σ × Decs α) Bool
  | [], st => .ok st true
  | ch :: chs, st =>
    (Run.lift st (do let m ← rd data (ch - start); addPadding m (paddedShape p))).bind fun st channel =>
    (decomposeStepsWith p stack f cb ch p.steps st channel).bind fun st channel =>
    (putSub st ch (p.steps * subbandsPerWT p) channel).bind fun st _ =>
    decomposeChannelsWith p stack f cb data start chs st

/-- `DecomposeImpl`, sources/wavelet_utils.cc:233-297, as `decomposeImpl`. The matrices are copied out of the cache, and its mutex is released,
before the denoiser is called for the first time. -/
def decomposeImplWith [Zero α] [Add α] [Mul α] [Neg α] [Inhabited α] (k : Kit α) (getStack : Outcome (Stack α))
    (p : Params) (st : σ × Decs α) (data : List (Mat α)) (cb : Callback σ α) (start count : ℤ) :
    Run (σ × Decs α) Bool :=
  (Run.lift st (shapeCheck p data count)).bind fun st good =>
  if good then
    (Run.lift st (if p.dimension = 2 then getStack else pure [])).bind fun st stack =>
    decomposeChannelsWith p stack (filters1D k p) cb data start.toNat (loopChannels start count) st
  else .ok st false

section
variable [Zero α] [Add α] [Mul α] [Neg α] [Inhabited α]

/-- `Impl::Decompose(const SignalN2D&)`, sources/wavelet_buffer.cc:96-100. -/
def Buffer.decomposeWith (k : Kit α) (b : Buffer α) (s : σ) (data : List (Mat α)) (cb : Callback σ α) : Run (σ × Decs α) Bool :=
  decomposeImplWith k (freshStack k b.params) b.params (s, b.decs) data cb 0 b.params.signalNumber

/-- `Impl::Decompose` of a view, sources/wavelet_buffer_view.cc:25-31. -/
def View.decomposeWith (k : Kit α) (v : View) (b : Buffer α) (s : σ) (data : List (Mat α)) (cb : Callback σ α) : Run (σ × Decs α) Bool :=
  (Run.lift (s, b.decs) (v.checkRange b.params.signalNumber)).bind fun st good =>
  if good then
    (if v.isConst then .ub
     else decomposeImplWith k (freshStack k b.params) b.params st data cb v.start v.count)
  else .ok st false

end

end WB
