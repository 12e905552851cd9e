import Verif.Model.Transform

/-!
Model of `WaveletBuffer` (`sources/wavelet_buffer.cc`), `WaveletBufferView` (`sources/wavelet_buffer_view.cc`) and the matrix
cache (`sources/wavelet_utils.cc:22-108`), sequential part.
-/

namespace WB

variable {α : Type}

/-- A `WaveletBuffer`: parameters and subbands (sources/wavelet_buffer.cc, members at the end of `Impl`). -/
structure Buffer (α : Type) where
  params : Params
  decs : Decs α

/-- `Impl(WaveletParameters)`, sources/wavelet_buffer.cc:28-65. `CalculateMinSignalSize` (236-239) computes `type * 2` in
`int`, which overflows for huge enum values. The replacement of the step count for type none (55-58) is executed only
when it is already 0. -/
def ctor (p : Params) : Outcome (Buffer α) :=
  if p.dimension ≠ 2 ∧ p.dimension ≠ 1 then .throw
  else if 2 ^ 30 ≤ p.wtype then .ub
  else if Params.shortest p.shape < p.wtype * 2 then .throw
  else if p.steps > maxSteps p.wtype p.shape then .throw
  else
    let p' := { p with steps := if p.wtype ≠ 0 then p.steps else 0 }
    .ok { params := p'
          decs := List.replicate p'.signalNumber (List.replicate (decompositionSize p') Mat.empty) }

/-- `Impl(WaveletParameters, NWaveletDecomposition)`, sources/wavelet_buffer.cc:67-88. -/
def ctorWith (p : Params) (decs : Decs α) : Outcome (Buffer α) := do
  let b : Buffer α ← ctor p
  if b.params.signalNumber ≠ decs.length then .throw
  else if (List.range b.decs.length).any (fun n =>
      (b.decs.getD n []).length ≠ (decs.getD n []).length) then .throw
  else pure { b with decs := decs }

/-- `IsEmpty`, sources/wavelet_buffer.cc:280-287. -/
def Buffer.isEmpty (b : Buffer α) : Bool := b.decs.all (fun c => c.all (fun m => m.rows * m.cols == 0))

/-! ### Matrix cache -/

/-- The two maps of `WaveletMatrixCache`, sources/wavelet_utils.cc:102-103, as association lists. -/
structure Cache (α : Type) where
  main : List (Params × Stack α)
  trans : List (Params × Stack α)

/-- `std::map::find`: the entry whose key is equivalent under `operator<`. -/
def mapFind (m : List (Params × Stack α)) (p : Params) : Option (Stack α) :=
  (m.find? (fun e => !(Params.ltOp e.1 p) && !(Params.ltOp p e.1))).map Prod.snd

/-- `GenerateMatrices`, sources/wavelet_utils.cc:37-60 (one thread; the lock is modelled in `Model/Threads`). -/
def Cache.genMatrices [Neg α] (k : Kit α) (c : Cache α) (padded : List ℕ) (p : Params) :
    Outcome (Cache α × Stack α) :=
  match mapFind c.main p with
  | some s => .ok (c, s)
  | none => do
    let s ← buildStack k padded p
    pure ({ c with main := c.main ++ [(p, s)] }, s)

/-- Transposition of all matrices of a stack, sources/wavelet_utils.cc:79-83. -/
def transStack (s : Stack α) : Stack α := s.map (fun l => l.map SpMat.transpose)

/-- `GenerateTransMatrices`, sources/wavelet_utils.cc:68-87. -/
def Cache.genTrans [Neg α] (k : Kit α) (c : Cache α) (padded : List ℕ) (p : Params) :
    Outcome (Cache α × Stack α) :=
  match mapFind c.trans p with
  | some s => .ok (c, s)
  | none => do
    let r ← c.genMatrices k padded p
    let s := transStack r.2
    pure ({ r.1 with trans := r.1.trans ++ [(p, s)] }, s)

/-- Split the result of a cache request into the cache after it and the outcome seen by the caller. -/
def cacheResult (c : Cache α) (r : Outcome (Cache α × Stack α)) : Cache α × Outcome (Stack α) :=
  match r with
  | .ok (c', s) => (c', .ok s)
  | .throw => (c, .throw)
  | .ub => (c, .ub)

/-- Decomposition as executed: the matrices come from the process-wide cache, which is asked only for 2D signals that
passed the shape checks. -/
def decomposeCached [Zero α] [Add α] [Mul α] [Neg α] [Inhabited α] (k : Kit α) (c : Cache α) (p : Params)
    (d : Decs α) (data : List (Mat α)) (den : Denoiser α) (start count : ℤ) :
    Cache α × Run (Decs α) Bool :=
  if p.dimension = 2 ∧ (shapeCheck p data count matches .ok true) then
    let r := cacheResult c (c.genMatrices k (paddedShape p) p)
    (r.1, decomposeImpl k r.2 p d data den start count)
  else (c, decomposeImpl k (.ok []) p d data den start count)

/-- Composition as executed, with the matrices from the cache. -/
def composeCached [Zero α] [Add α] [Mul α] [Neg α] [Inhabited α] (k : Kit α) (c : Cache α) (p : Params)
    (d : Decs α) (scale start count : ℤ) : Cache α × Outcome (List (Mat α)) :=
  if p.dimension = 2 ∧ ¬ count < 0 then
    let r := cacheResult c (c.genTrans k (paddedShape p) p)
    (r.1, composeImpl k r.2 p d scale start count)
  else (c, composeImpl k (.ok []) p d scale start count)

/-- Freshly computed matrices (no cache). -/
def freshStack [Neg α] (k : Kit α) (p : Params) : Outcome (Stack α) := buildStack k (paddedShape p) p

/-- Freshly computed transposed matrices (no cache). -/
def freshTrans [Neg α] (k : Kit α) (p : Params) : Outcome (Stack α) := do
  let s ← freshStack k p
  pure (transStack s)

/-! ### Buffer operations without the cache (what the cached ones are proved equal to) -/

section Ops
variable [Zero α] [Add α] [Mul α] [Neg α] [Inhabited α]

/-- `Impl::Decompose(const SignalN2D&)`, sources/wavelet_buffer.cc:96-100. -/
def Buffer.decompose (k : Kit α) (b : Buffer α) (data : List (Mat α)) (den : Denoiser α) :
    Run (Decs α) Bool :=
  decomposeImpl k (freshStack k b.params) b.params b.decs data den 0 b.params.signalNumber

/-- `Impl::Decompose(const Signal1D&)`, sources/wavelet_buffer.cc:107-114: the vector becomes an n×1 matrix and exactly
one channel is decomposed. -/
def Buffer.decompose1 (k : Kit α) (b : Buffer α) (data : List α) (den : Denoiser α) : Run (Decs α) Bool :=
  decomposeImpl k (freshStack k b.params) b.params b.decs [Mat.ofCol data] den 0 1

/-- `Impl::Compose(SignalN2D*)`, sources/wavelet_buffer.cc:121-124. -/
def Buffer.compose (k : Kit α) (b : Buffer α) (scale : ℤ) : Outcome (List (Mat α)) :=
  composeImpl k (freshTrans k b.params) b.params b.decs scale 0 b.params.signalNumber

/-- `Impl::Compose(Signal1D*)`, sources/wavelet_buffer.cc:131-140: all channels are composed, column 0 of the first one is
returned. `data2d[0]` of an empty list is undefined behaviour. -/
def Buffer.compose1 (k : Kit α) (b : Buffer α) (scale : ℤ) : Outcome (List α) := do
  let ms ← b.compose k scale
  let m ← rd ms 0
  column0 m

/-! ### Views -/

/-- `WaveletBufferView::Impl`, sources/wavelet_buffer_view.cc:66-69; `isConst` is set when the view was made from a const
buffer (then `buffer_` is a null pointer). -/
structure View where
  start : ℤ
  count : ℤ
  isConst : Bool
  deriving DecidableEq, Repr

/-- `CheckChannelRange`, sources/wavelet_buffer_view.cc:58-64: `start + count` is computed in `int` (overflow is undefined
behaviour), then `signal_number < start + count` compares unsigned, so a negative sum counts as huge. -/
def View.checkRange (v : View) (signalNumber : ℕ) : Outcome Bool :=
  if -2 ^ 31 ≤ v.start + v.count ∧ v.start + v.count < 2 ^ 31 then
    .ok (decide (0 ≤ v.start + v.count ∧ v.start + v.count ≤ signalNumber))
  else .ub

/-- `Impl::Decompose`, sources/wavelet_buffer_view.cc:25-31. -/
def View.decompose (k : Kit α) (v : View) (b : Buffer α) (data : List (Mat α)) (den : Denoiser α) :
    Run (Decs α) Bool :=
  (Run.lift b.decs (v.checkRange b.params.signalNumber)).bind fun d good =>
  if good then
    (if v.isConst then .ub
     else decomposeImpl k (freshStack k b.params) b.params d data den v.start v.count)
  else .ok d false

/-- `Impl::Compose`, sources/wavelet_buffer_view.cc:33-38; `none` is the return value `false`. -/
def View.compose (k : Kit α) (v : View) (b : Buffer α) (scale : ℤ) : Outcome (Option (List (Mat α))) :=
  v.checkRange b.params.signalNumber >>= fun good =>
  if good then
    composeImpl k (freshTrans k b.params) b.params b.decs scale v.start v.count >>= fun ms => pure (some ms)
  else .ok none

end Ops

/-- `Impl::CastToBuffer`, sources/wavelet_buffer_view.cc:44-55: no range check; a negative count cannot be allocated. -/
def View.cast (v : View) (b : Buffer α) : Outcome (Buffer α) :=
  if v.count < 0 then .throw
  else do
    let nb : Buffer α ← ctor { b.params with signalNumber := v.count.toNat }
    let chs ← (List.range v.count.toNat).mapM (fun (ch : ℕ) =>
      if 0 ≤ (ch : ℤ) + v.start then rd b.decs ((ch : ℤ) + v.start).toNat else .ub)
    pure { nb with decs := chs }

end WB
