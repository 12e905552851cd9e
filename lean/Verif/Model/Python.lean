import Verif.Model.Serialize

/-!
Model of the Python bindings: array conversion (`python/src/blaze_utils.cc`), `WaveletBuffer` (`python/src/wavelet_buffer.cc`, with the
thin wrapper `python/src/wavelet_buffer/wavelet_buffer.py`) and views (`python/src/wavelet_buffer_view.cc`).

pybind11 and NumPy are outside `/repo`; what is used of them: a NumPy array is a piece of memory with shape and strides in bytes;
`request(true)` of an array that is not writable throws; a Python integer that does not fit the C++ parameter throws; slices are
resolved as by `PySlice_AdjustIndices`; casting a buffer that Python already knows gives the same object (so a view changes the buffer).
-/

namespace WB.Py

open WB

/-- A NumPy array: its memory, the position of its first element in it, shape, strides in bytes, bytes per element. -/
structure NpArray where
  mem : Bytes
  start : ℤ
  shape : List ℕ
  strides : List ℤ
  itemsize : ℕ
  writable : Bool

/-- The `float` in the four bytes from a position on. Outside of the memory is undefined behaviour. (Alignment is ignored.) -/
def floatAt (mem : Bytes) (pos : ℤ) : Outcome F32 :=
  if 0 ≤ pos ∧ pos + 4 ≤ mem.length then .ok (BitVec.ofNat 32 (fromLE ((mem.drop pos.toNat).take 4))) else .ub

/-- `ptr[k]` for `ptr = static_cast<const float *>(data.request(true).ptr)`. -/
def NpArray.float (a : NpArray) (k : ℕ) : Outcome F32 := floatAt a.mem (a.start + 4 * k)

/-- A matrix filled element by element, row by row. -/
def fillMat (h w : ℕ) (f : ℕ → ℕ → Outcome F32) : Outcome (Mat F32) := do
  let xs ← (List.range (h * w)).mapM fun k => f (k / w) (k % w)
  pure (Mat.ofFn h w fun i j => xs.getD (i * w + j) 0)

/-- The memory of an array that was filled row by row. -/
def floatBytes (xs : List F32) : Bytes := xs.flatMap fun x => le 4 x.toNat

/-- `PyArrayToSignalN2D`, python/src/blaze_utils.cc:17-36. The strides and the element type of the array are not looked at. Fewer than three
dimensions are read beyond the end of `shape`. The loop counters are `int`s. -/
def toSignal (a : NpArray) : Outcome (List (Mat F32)) :=
  match a.shape with
  | c :: h :: w :: _ =>
    if !a.writable then .throw
    else if 2 ^ 31 ≤ c ∨ 2 ^ 31 ≤ h ∨ 2 ^ 31 ≤ w then .ub
    else (List.range c).mapM fun ch => fillMat h w fun i j => a.float (h * w * ch + w * i + j)
  | _ => .ub

/-- `SignalN2DToPyArray`, python/src/blaze_utils.cc:38-65: the sizes are those of the first channel; `data[0]` of an empty list and elements outside of
the other channels are undefined behaviour. -/
def ofSignal (ms : List (Mat F32)) : Outcome NpArray :=
  match ms with
  | [] => .ub
  | m0 :: _ =>
    let h := m0.rows
    let w := m0.cols
    if 2 ^ 31 ≤ ms.length ∨ 2 ^ 31 ≤ h ∨ 2 ^ 31 ≤ w then .ub
    else do
      let cs ← ms.mapM fun m => fillMat h w fun i j => if i < m.rows ∧ j < m.cols then .ok (m.get i j) else .ub
      pure { mem := floatBytes (cs.flatMap Mat.data), start := 0, shape := [ms.length, h, w], strides := [4 * (h * w), 4 * w, 4],
             itemsize := 4, writable := true }

/-- One subband in `NWaveletDecompositionToNPy`, python/src/blaze_utils.cc:75-102. -/
def ofSubband (m : Mat F32) : Outcome NpArray :=
  if 2 ^ 31 ≤ m.rows ∨ 2 ^ 31 ≤ m.cols then .ub
  else .ok { mem := floatBytes m.data, start := 0, shape := [m.rows, m.cols], strides := [4 * m.cols, 4], itemsize := 4, writable := true }

/-- `NWaveletDecompositionToNPy`, python/src/blaze_utils.cc:67-108, the property `decompositions`. -/
def ofDecs (d : Decs F32) : Outcome (List (List NpArray)) := d.mapM fun c => c.mapM ofSubband

/-- One subband in `NPyDecompositionToNW`, python/src/blaze_utils.cc:117-129, for an array of type `float32` (others are converted by pybind11 before). -/
def toSubband (a : NpArray) : Outcome (Mat F32) :=
  match a.shape with
  | h :: w :: _ =>
    if !a.writable then .throw
    else if 2 ^ 31 ≤ h ∨ 2 ^ 31 ≤ w then .ub
    else fillMat h w fun i j => a.float (w * i + j)
  | _ => .ub

/-- `WaveletBuffer.__init__`, python/src/wavelet_buffer.cc:135-156 and wavelet_buffer.py:37-64: an empty list of decompositions counts as none. -/
def init (p : Params) (decs : List (List NpArray)) : Outcome (Buffer F32) :=
  if decs.isEmpty then ctor p
  else do
    let d ← decs.mapM fun c => c.mapM toSubband
    ctorWith p d

/-- Iterating over a one-dimensional array of type `float32`, python/src/wavelet_buffer.cc:79-83: NumPy follows the strides. -/
def items (a : NpArray) : Outcome (List F32) :=
  (List.range (a.shape.getD 0 0)).mapM fun (k : ℕ) => floatAt a.mem (a.start + a.strides.getD 0 0 * (k : ℤ))

section Ops
variable {α : Type} [Zero α] [Add α] [Mul α] [Neg α] [Inhabited α]

/-- A failed call becomes a Python exception. -/
def orThrow (r : Run (Decs α) Bool) : Run (Decs α) Unit := r.bind fun d good => if good then .ok d () else .throw d

/-- `decompose`, python/src/wavelet_buffer.cc:24-87, 174-186, for arrays of type `float32` in one dimension. `val` reads a number from its bits. -/
def decompose (k : Kit α) (val : F32 → α) (b : Buffer α) (a : NpArray) (den : Denoiser α) : Run (Decs α) Unit :=
  if b.params.dimension = 1 then
    if a.shape.length ≠ 1 then .throw b.decs
    else if a.shape.getD 0 0 ≠ b.params.shape.getD 0 0 then .throw b.decs
    else (Run.lift b.decs (items a)).bind fun _ xs => orThrow (b.decompose1 k (xs.map val) den)
  else if b.params.dimension = 2 then
    if a.shape.length ≠ 3 then .throw b.decs
    else if a.shape.getD 0 0 ≠ b.params.signalNumber then .throw b.decs
    else if a.shape.getD 1 0 ≠ b.params.shape.getD 1 0 then .throw b.decs
    else if a.shape.getD 2 0 ≠ b.params.shape.getD 0 0 then .throw b.decs
    else (Run.lift b.decs (toSignal a)).bind fun _ ms => orThrow (b.decompose k (ms.map (Mat.map val)) den)
  else .throw b.decs

/-- `compose`, python/src/wavelet_buffer.cc:94-117, 188-200. `bits` gives the bits of a number. -/
def compose (k : Kit α) (bits : α → F32) (b : Buffer α) (scale : ℤ) : Outcome NpArray :=
  if b.params.dimension = 1 then do
    let xs ← b.compose1 k scale
    pure { mem := floatBytes (xs.map bits), start := 0, shape := [xs.length], strides := [4], itemsize := 4, writable := true }
  else if b.params.dimension = 2 then do
    let ms ← b.compose k scale
    ofSignal (ms.map (Mat.map bits))
  else .throw

/-- A slice `start:stop:step` of a sequence of `n` elements, as resolved by `PySlice_AdjustIndices`; step 0 is an error. -/
def resolve (n : ℕ) (start stop step : Option ℤ) : Outcome (ℤ × ℤ × ℤ) :=
  let st := step.getD 1
  if st = 0 then .throw
  else
    let clamp (x : ℤ) : ℤ :=
      if x < 0 then (if x + n < 0 then (if st < 0 then -1 else 0) else x + n)
      else if (n : ℤ) ≤ x then (if st < 0 then n - 1 else n) else x
    .ok (start.elim (if st < 0 then (n : ℤ) - 1 else 0) clamp, stop.elim (if st < 0 then -1 else (n : ℤ)) clamp, st)

/-- `__getitem__`, python/src/wavelet_buffer.cc:221-242: the numbers are `size_t`, so a negative step counts as huge; the view gets `start` and
`stop - start` converted to `int` (the sizes in use fit). -/
def getItem (b : Buffer α) (start stop step : Option ℤ) : Outcome View := do
  let (lo, hi, st) ← resolve b.params.signalNumber start stop step
  if st < 0 ∨ 1 < st then .throw
  else if lo = hi then .throw
  else pure ⟨lo, hi - lo, false⟩

/-- `decompose` of a view, python/src/wavelet_buffer_view.cc:20-52, 67-78. -/
def viewDecompose (k : Kit α) (val : F32 → α) (v : View) (b : Buffer α) (a : NpArray) (den : Denoiser α) : Run (Decs α) Unit :=
  if b.params.dimension ≠ 2 then .throw b.decs
  else if a.shape.length ≠ 3 then .throw b.decs
  else if (a.shape.getD 0 0 : ℤ) ≠ v.count then .throw b.decs
  else if a.shape.getD 1 0 ≠ b.params.shape.getD 1 0 then .throw b.decs
  else if a.shape.getD 2 0 ≠ b.params.shape.getD 0 0 then .throw b.decs
  else (Run.lift b.decs (toSignal a)).bind fun _ ms => orThrow (v.decompose k b (ms.map (Mat.map val)) den)

/-- `compose` of a view, python/src/wavelet_buffer_view.cc:54-63, 79-89. -/
def viewCompose (k : Kit α) (bits : α → F32) (v : View) (b : Buffer α) (scale : ℤ) : Outcome NpArray :=
  if b.params.dimension ≠ 2 then .throw
  else v.compose k b scale >>= fun r =>
    match r with
    | none => .throw
    | some ms => ofSignal (ms.map (Mat.map bits))

end Ops

/-- `serialize`, python/src/wavelet_buffer.cc:202-212: the level is an `int`, passed on as `uint8_t`. -/
def serialize (e : Ext) (b : Buffer F32) (level : ℤ) : Outcome Bytes :=
  if level < -2 ^ 31 ∨ 2 ^ 31 ≤ level then .throw
  else WB.serialize e b [] (level % 256).toNat >>= fun r => if r.1 then .ok r.2 else .throw

end WB.Py
