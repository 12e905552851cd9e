import Verif.Model.Padding
import Verif.Model.Params
import Verif.Model.Wavelet

/-!
Model of `DecomposeImpl`/`ComposeImpl` in `sources/wavelet_utils.cc`.
-/

namespace WB

variable {α : Type}

/-- `DenoiseAlgorithm`, wavelet_buffer/denoise_algorithms.h:16-33: an implementation provides one function for vectors and
one for matrices; the second argument is the step. Implementations are total functions (they do not throw). -/
structure Denoiser (α : Type) where
  d1 : List α → ℕ → List α
  d2 : Mat α → ℕ → Mat α

/-- `NullDenoiseAlgorithm`, wavelet_buffer/denoise_algorithms.h:39-52: returns its argument. -/
def nullDenoiser : Denoiser α := ⟨fun v _ => v, fun m _ => m⟩

/-- Subbands of one channel, details first, approximation last. -/
abbrev Channel (α : Type) := List (Mat α)

/-- `NWaveletDecomposition`: channel → subbands. -/
abbrev Decs (α : Type) := List (Channel α)

/-- The transform matrices of every step, per dimension (`WaveletMatrixStack`). -/
abbrev Stack (α : Type) := List (List (SpMat α))

/-- The body of `WaveletMatrixCache::GenerateMatrices` that is executed when the cache has no entry,
sources/wavelet_utils.cc:46-56; `padded_size / pow(2, step)` truncated is integer division. -/
def buildStack [Neg α] (k : Kit α) (padded : List ℕ) (p : Params) : Outcome (Stack α) :=
  (List.range p.steps).mapM (fun step =>
    padded.mapM (fun n => daubechiesMat k (n / 2 ^ step) (p.wtype * 2)))

/-- Write one subband: `*((*decomposition)[ch].begin() + idx) = m`; out of range is undefined behaviour. -/
def setSub (d : Decs α) (ch idx : ℕ) (m : Mat α) : Run (Decs α) Unit :=
  match d[ch]? with
  | none => .ub
  | some c => if idx < c.length then .ok (d.set ch (c.set idx m)) () else .ub

/-- `blaze::column(m, 0)`, throws when there is no such column. -/
def column0 [Inhabited α] (m : Mat α) : Outcome (List α) := if m.cols = 0 then .throw else .ok (m.col 0)

/-- `CalculateOneSideStep1D`, sources/wavelet_utils.cc:192-207. Returns the next approximation. The assignment
of the denoised vector to a column throws when the denoiser changed the size. -/
def oneSideStep1D [Zero α] [Add α] [Mul α] [Inhabited α] (d : Decs α) (ch dest : ℕ) (den : Denoiser α)
    (lo hi : List α) (signal : Mat α) (step : ℕ) : Run (Decs α) (Mat α) :=
  (Run.lift d (do let x ← column0 signal; dwt x lo hi)).bind fun d r =>
    let v := den.d1 r.2 step
    if v.length ≠ r.2.length then .throw d
    else (setSub d ch (dest + 0) (Mat.ofCol v)).bind fun d _ => .ok d (Mat.ofCol r.1)

/-- `CalculateOneSideStep2D`, sources/wavelet_utils.cc:170-183. Returns the next approximation. -/
def oneSideStep2D [Zero α] [Add α] [Mul α] [Inhabited α] (d : Decs α) (ch dest : ℕ) (den : Denoiser α)
    (mats : List (SpMat α)) (signal : Mat α) (step : ℕ) : Run (Decs α) (Mat α) :=
  (Run.lift d (do let w ← rd mats 0; let h ← rd mats 1; dwt2 signal w h)).bind fun d q =>
    (setSub d ch (dest + 0) (den.d2 q.lh step)).bind fun d _ =>
    (setSub d ch (dest + 1) (den.d2 q.hl step)).bind fun d _ =>
    (setSub d ch (dest + 2) (den.d2 q.hh step)).bind fun d _ =>
    .ok d q.ll

/-- The loop over the steps of one channel, sources/wavelet_utils.cc:279-291; `rem` steps remain, the current one is
`p.steps - rem`. Returns the last approximation. -/
def decomposeSteps [Zero α] [Add α] [Mul α] [Inhabited α] (p : Params) (stack : Stack α)
    (f : Filters α) (den : Denoiser α) (ch : ℕ) : ℕ → Decs α → Mat α → Run (Decs α) (Mat α)
  | 0, d, signal => .ok d signal
  | rem + 1, d, signal =>
    let step := p.steps - (rem + 1)
    let dest := step * subbandsPerWT p
    let r := if p.dimension = 1 then
        oneSideStep1D d ch dest den f.loD.reverse f.hiD.reverse signal step
      else
        (Run.lift d (rd stack step)).bind fun d mats => oneSideStep2D d ch dest den mats signal step
    r.bind fun d signal => decomposeSteps p stack f den ch rem d signal

/-- The loop over the channels, sources/wavelet_utils.cc:276-294, for the list of channels still to do;
`data[ch - start_signal]` out of range is undefined behaviour. -/
def decomposeChannels [Zero α] [Add α] [Mul α] [Inhabited α] (p : Params) (stack : Stack α)
    (f : Filters α) (den : Denoiser α) (data : List (Mat α)) (start : ℕ) :
    List ℕ → Decs α → Run (Decs α) Bool
  | [], d => .ok d true
  | ch :: chs, d =>
    (Run.lift d (do let m ← rd data (ch - start); addPadding m (paddedShape p))).bind fun d channel =>
    (decomposeSteps p stack f den ch p.steps d channel).bind fun d channel =>
    (setSub d ch (p.steps * subbandsPerWT p) channel).bind fun d _ =>
    decomposeChannels p stack f den data start chs d

/-- The channels the loop `for (int ch = start; ch < start + count; ++ch)` visits when `start` and `count` were `int`s that
got converted to `size_t` (sources/wavelet_utils.cc:276, 388): the comparison is unsigned, so a negative `start` gives no iteration at
all, as does a negative `count`. -/
def loopChannels (start count : ℤ) : List ℕ :=
  if start < 0 then [] else List.range' start.toNat count.toNat

/-- The shape checks at sources/wavelet_utils.cc:237-251: `ok true` means the data are accepted. Only the first channel is
looked at; reading `data[0]` of an empty list is undefined behaviour. -/
def shapeCheck (p : Params) (data : List (Mat α)) (count : ℤ) : Outcome Bool :=
  if p.dimension = 2 then
    if (data.length : ℤ) ≠ count then .ok false
    else do
      let m ← rd data 0
      pure (decide (m.cols = p.shape.getD 0 0 ∧ m.rows = p.shape.getD 1 0))
  else if p.dimension = 1 then do
    let m ← rd data 0
    pure (decide (m.rows = p.shape.getD 0 0))
  else .ok true

/-- The filters used for 1D, sources/wavelet_utils.cc:267-274 and 377-385: for wavelet type none they are empty. -/
def filters1D [Neg α] (k : Kit α) (p : Params) : Filters α :=
  orthfilt k (if p.wtype ≠ 0 then k.dbwavf p.wtype else [])

/-- `DecomposeImpl`, sources/wavelet_utils.cc:233-297. `getStack` stands for the call of the matrix cache at 261-264 (it is
evaluated only in 2D and only after the shape checks). `start`/`count` are the integers passed by the caller. -/
def decomposeImpl [Zero α] [Add α] [Mul α] [Neg α] [Inhabited α] (k : Kit α) (getStack : Outcome (Stack α))
    (p : Params) (d : Decs α) (data : List (Mat α)) (den : Denoiser α) (start count : ℤ) :
    Run (Decs α) Bool :=
  (Run.lift d (shapeCheck p data count)).bind fun d good =>
  if good then
    (Run.lift d (if p.dimension = 2 then getStack else pure [])).bind fun d stack =>
    decomposeChannels p stack (filters1D k p) den data start.toNat (loopChannels start count) d
  else .ok d false

/-- `ComposeStep`, sources/wavelet_utils.cc:341-359: `c` is the channel's subband list, `src` the index one past the
details of the step. In 1D `mats` is not used. -/
def composeStep [Zero α] [Add α] [Mul α] [Inhabited α] (dimension : ℕ) (f : Filters α) (mats : List (SpMat α))
    (low : Mat α) (c : Channel α) (src : ℕ) : Outcome (Mat α) :=
  if dimension = 1 then do
    if src < 1 then .ub
    else do
      let high ← rd c (src - 1)
      let l ← column0 low
      let h ← column0 high
      let r ← idwt l h f.loR.reverse f.hiR.reverse
      pure (Mat.ofCol r)
  else if src < 3 then .ub
  else do
    let lh ← rd c (src - 3)
    let hl ← rd c (src - 2)
    let hh ← rd c (src - 1)
    let w ← rd mats 0
    let h ← rd mats 1
    idwt2 ⟨low, lh, hl, hh⟩ w h

/-- The matrices of one step; in 1D none are used (sources/wavelet_utils.cc:395-405). -/
def stepMats (p : Params) (tstack : Stack α) (i : ℕ) : Outcome (List (SpMat α)) :=
  if p.dimension = 1 then .ok [] else rd tstack i

/-- The loop `for (i = steps; i > scale; --i)`, sources/wavelet_utils.cc:395-405, `n` iterations starting at `i`. -/
def composeSteps [Zero α] [Add α] [Mul α] [Inhabited α] (p : Params) (tstack : Stack α) (f : Filters α)
    (c : Channel α) : ℕ → ℕ → Mat α → Outcome (Mat α)
  | 0, _, m => .ok m
  | n + 1, i, m => do
    let mats ← stepMats p tstack (i - 1)
    let m ← composeStep p.dimension f mats m c (i * subbandsPerWT p)
    composeSteps p tstack f c n (i - 1) m

/-- One channel of the inner `ComposeImpl`, sources/wavelet_utils.cc:388-409, for a scale `scale ≥ 0`. -/
def composeChannel [Zero α] [Add α] [Mul α] [Inhabited α] (p : Params) (tstack : Stack α) (f : Filters α)
    (d : Decs α) (scale ch : ℕ) : Outcome (Mat α) := do
  let c ← rd d ch
  let m ← rd c (p.steps * subbandsPerWT p)
  composeSteps p tstack f c (p.steps - scale) p.steps m

/-- Crop and normalise one channel, sources/wavelet_utils.cc:423-437. `x / pow(2, steps)` truncated is integer division. -/
def finishChannel [Inhabited α] (k : Kit α) (p : Params) (scale : ℕ) (m : Mat α) : Outcome (Mat α) := do
  let m ← cropPadding m (p.shape.map (· / 2 ^ scale))
  pure (if scale > 0 then m.map (k.divFactor (p.dimension == 2) scale) else m)

/-- `ComposeImpl`, sources/wavelet_utils.cc:361-440 (both overloads). `getStack` stands for the call of the matrix
cache at 371-374. The result is the composed signal; the function always returns `true`.
* `count < 0`: the vector of that many channels cannot be allocated, an exception leaves the call;
* `start < 0` with `count > 0`: the channel loop does not run, the empty subband list is then indexed with `size() - 1`;
* `scale < 0` becomes a huge `size_t`: in 1D with scale -1 the list is resized to 0 and then indexed with `size() - 1`,
  otherwise the resize cannot be allocated. -/
def composeImpl [Zero α] [Add α] [Mul α] [Neg α] [Inhabited α] (k : Kit α) (getStack : Outcome (Stack α))
    (p : Params) (d : Decs α) (scale start count : ℤ) : Outcome (List (Mat α)) :=
  if count < 0 then .throw
  else (if p.dimension = 2 then getStack else pure []) >>= fun tstack =>
    if start < 0 ∧ 0 < count then .ub
    else if scale < 0 ∧ 0 < count then
      (if p.dimension = 1 ∧ scale = -1 then .ub else .throw)
    else do
      let ms ← (loopChannels start count).mapM (composeChannel p tstack (filters1D k p) d scale.toNat)
      ms.mapM (finishChannel k p scale.toNat)

end WB
