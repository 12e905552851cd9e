import Verif.Model.Python
import Verif.Model.Image

/-!
Model of the remaining Python bindings: `energy_distribution` and `decomposition_size` (`python/src/wavelet_buffer.cc`), the codecs
(`python/src/img/codecs.cc`) and images (`python/src/img/wavelet_image.cc`).
-/

namespace WB.Py

open WB

/-- `VecVecToPyArray`, python/src/blaze_utils.cc:136-158: `data[0]` of an empty vector and elements outside of the other vectors are undefined
behaviour; the loop counters are `int`s. -/
def ofVecs (vs : List (List F32)) : Outcome NpArray :=
  match vs with
  | [] => .ub
  | v0 :: _ =>
    if 2 ^ 31 ≤ vs.length ∨ 2 ^ 31 ≤ v0.length then .ub
    else do
      let rows ← vs.mapM fun v => (List.range v0.length).mapM fun i => rd v i
      pure { mem := floatBytes rows.flatten, start := 0, shape := [vs.length, v0.length], strides := [4 * v0.length, 4], itemsize := 4,
             writable := true }

/-- `energy_distribution`, python/src/wavelet_buffer.cc:125-132. `bits` gives the bits of the `float` next to a number. -/
noncomputable def energyDistribution (bits : ℝ → F32) (b : Buffer ℝ) : Outcome NpArray :=
  let dist := (WB.energyDistribution b).map (List.map bits)
  if b.params.dimension = 1 then
    match dist with
    | [] => .ub
    | v0 :: _ => .ok { mem := floatBytes v0, start := 0, shape := [v0.length], strides := [4], itemsize := 4, writable := true }
  else ofVecs dist

/-- `decomposition_size`, wavelet_buffer.py:66-80 and python/src/wavelet_buffer.cc:158-170: no channels and type none are passed. `size_t` wraps. -/
def decompositionSize (shape : List ℕ) (steps : ℕ) : ℕ := WB.decompositionSize ⟨shape, 0, steps, 0⟩ % 2 ^ 64

/-- `decode` of a codec, python/src/img/codecs.cc:24-31. -/
def decode (e : JpegExt F32) (kind : CodecKind) (blob : Bytes) : Outcome NpArray :=
  codecDecode e kind blob [] 0 >>= fun r => if r.1 then ofSignal r.2 else .throw

/-- `encode` of a codec, python/src/img/codecs.cc:33-43: `shape[1]` and `shape[2]` are read without a check, as in `toSignal`. -/
def encode (e : JpegExt F32) (kind : CodecKind) (quality : ℤ) (a : NpArray) (sc : ℕ) : Outcome Bytes :=
  toSignal a >>= fun ms =>
    match codecEncode e kind quality ms [] sc with
    | .ok blob good => if good then .ok blob else .throw
    | .throw _ => .throw
    | .ub => .ub

section Images
variable {α : Type} [Zero α] [Add α] [Mul α] [Neg α] [Inhabited α]

/-- A status other than `kOk` becomes an exception. -/
def okOrThrow {σ : Type} (r : Run σ Status) : Run σ Unit := r.bind fun s st => if st ≠ .kOk then .throw s else .ok s ()

/-- `import_from_string`, python/src/img/wavelet_image.cc:60-72. -/
def importFromString (k : Kit α) (codec : ImageCodec α) (b : Buffer α) (blob : Bytes) (den : Denoiser α) (sc : ℕ) : Run (Decs α) Unit :=
  okOrThrow (WB.importFromString k codec b blob den sc)

/-- `import_from_file`, python/src/img/wavelet_image.cc:34-47. -/
def importFromFile (k : Kit α) (codec : ImageCodec α) (env : FileEnv) (fs : Files) (b : Buffer α) (path : String) (den : Denoiser α) (sc : ℕ) :
    Run (Decs α) Unit := okOrThrow (WB.importFromFile k codec env fs b path den sc)

/-- The data if the status is `kOk`, otherwise an exception. -/
def dataOrThrow (r : Run Bytes Status) : Outcome Bytes :=
  match r with
  | .ok data st => if st ≠ .kOk then .throw else .ok data
  | .throw _ => .throw
  | .ub => .ub

/-- `export_to_string`, python/src/img/wavelet_image.cc:74-85. -/
def exportToString (k : Kit α) (codec : ImageCodec α) (b : Buffer α) (sc : ℕ) : Outcome Bytes :=
  dataOrThrow (WB.exportToString k codec b [] sc)

/-- What Python makes of the status of a call that writes files, python/src/img/wavelet_image.cc:49-58 and 89-97. -/
def raise (r : List Effect × Outcome Status) : List Effect × Outcome Unit :=
  (r.1, r.2 >>= fun st => if st ≠ .kOk then .throw else .ok ())

/-- `export_to_file`, python/src/img/wavelet_image.cc:49-58. -/
def exportToFile (k : Kit α) (codec : ImageCodec α) (env : FileEnv) (b : Buffer α) (path : String) (sc : ℕ) : List Effect × Outcome Unit :=
  raise (WB.exportToFile k codec env b path sc)

end Images

/-- `save`, python/src/img/wavelet_image.cc:89-97. `load` (line 87) is `loadImageFile`; a null pointer becomes `None`. -/
def save (e : Ext) (env : FileEnv) (b : Buffer F32) (path : String) : List Effect × Outcome Unit := raise (saveImageFile e env b path)

end WB.Py
