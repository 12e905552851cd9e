import Verif.Model.Codec
import Verif.Model.Metrics

/-!
Model of `WaveletImage`, `sources/img/wavelet_image.cc`, with a small model of the files it reads and writes.
-/

namespace WB

/-- `WaveletImage::Status`, wavelet_buffer/img/wavelet_image.h:31-38. -/
inductive Status where
  | kOk | kWrongSize | kDecompositionError | kCompositionError | kIOError | kWrongData
  deriving DecidableEq, Repr

/-- `IImageCodec` as `WaveletImage` uses it (wavelet_buffer/img/image_codec.h): `Decode` into an empty image and `Encode`, both
with start channel 0, and `channel_number`. -/
structure ImageCodec (α : Type) where
  channels : ℕ
  decode : Bytes → Outcome (Bool × List (Mat α))
  encode : List (Mat α) → Bytes → Run Bytes Bool

/-- The codecs of `sources/img/jpeg_codecs.cc`. -/
def jpegCodec {α : Type} [Inhabited α] (e : JpegExt α) (kind : CodecKind) (quality : ℤ) : ImageCodec α :=
  ⟨kind.channels, fun blob => codecDecode e kind blob [] 0, fun im blob => codecEncode e kind quality im blob 0⟩

/-! ### Files -/

/-- Contents of the files, by path. -/
abbrev Files := String → Option Bytes

/-- What a call does to the files, one byte at a time: a file is created or emptied, or a byte is appended to it. -/
inductive Effect where
  | create (path : String)
  | put (path : String) (x : UInt8)

/-- One effect. -/
def Effect.run : Files → Effect → Files
  | fs, .create path => fun q => if q = path then some [] else fs q
  | fs, .put path x => fun q => if q = path then some ((fs path).getD [] ++ [x]) else fs q

/-- The files after a sequence of effects. A crash leaves the files after a prefix of them. -/
def runEffects (fs : Files) (es : List Effect) : Files := es.foldl Effect.run fs

/-- What the environment decides: whether a stream can be opened for reading or writing, and how many bytes of some data
reach a file (fewer than all if the disk is full; the code does not look at the stream's state after writing). -/
structure FileEnv where
  canRead : String → Bool
  canWrite : String → Bool
  kept : String → Bytes → ℕ

/-- `std::ifstream file(path); ss << file.rdbuf(); ss.str()`; `none` if the file cannot be opened. -/
def readFile (env : FileEnv) (fs : Files) (path : String) : Option Bytes := if env.canRead path then fs path else none

/-- `file << data` with a stream opened for writing. -/
def writeData (env : FileEnv) (path : String) (data : Bytes) : List Effect :=
  (data.take (env.kept path data)).map (Effect.put path)

section Images
variable {α : Type} [Zero α] [Add α] [Mul α] [Neg α] [Inhabited α]

/-- `WaveletImage(channel_number, w, h)`, sources/img/wavelet_image.cc:111-117. -/
def imageOf (channels w h : ℕ) : Outcome (Buffer α) := ctor ⟨[w, h], channels, 0, 1⟩

/-- `ImportFromString`, sources/img/wavelet_image.cc:58-74; `operator()(int, int)` cuts the `size_t` arguments to `int`. -/
def importFromString (k : Kit α) (codec : ImageCodec α) (b : Buffer α) (blob : Bytes) (den : Denoiser α) (sc : ℕ) :
    Run (Decs α) Status :=
  (Run.lift b.decs (codec.decode blob)).bind fun d r =>
  if r.1 then
    ((View.mk (toInt32 sc) (toInt32 r.2.length) false).decompose k ⟨b.params, d⟩ r.2 den).bind fun d good =>
      .ok d (if good then .kOk else .kDecompositionError)
  else .ok d .kWrongData

/-- `ImportFromFile`, sources/img/wavelet_image.cc:22-38. -/
def importFromFile (k : Kit α) (codec : ImageCodec α) (env : FileEnv) (fs : Files) (b : Buffer α) (path : String)
    (den : Denoiser α) (sc : ℕ) : Run (Decs α) Status :=
  match readFile env fs path with
  | some blob => importFromString k codec b blob den sc
  | none => .ok b.decs .kIOError

/-- `ExportToString`, sources/img/wavelet_image.cc:76-90; the view is one of a const buffer. -/
def exportToString (k : Kit α) (codec : ImageCodec α) (b : Buffer α) (old : Bytes) (sc : ℕ) : Run Bytes Status :=
  (Run.lift old ((View.mk (toInt32 sc) (toInt32 codec.channels) true).compose k b 0)).bind fun data o =>
  match o with
  | some im => (codec.encode im data).bind fun data good => .ok data (if good then .kOk else .kWrongData)
  | none => .ok data .kCompositionError

/-- `ExportToFile`, sources/img/wavelet_image.cc:40-56: opening the stream empties the file, before the image is composed. -/
def exportToFile (k : Kit α) (codec : ImageCodec α) (env : FileEnv) (b : Buffer α) (path : String) (sc : ℕ) :
    List Effect × Outcome Status :=
  if env.canWrite path then
    match exportToString k codec b [] sc with
    | .ok data .kOk => (.create path :: writeData env path data, .ok .kOk)
    | .ok _ st => ([.create path], .ok st)
    | .throw _ => ([.create path], .throw)
    | .ub => ([.create path], .ub)
  else ([], .ok .kIOError)

end Images

/-- `Save`, sources/img/wavelet_image.cc:92-106; `Serialize` is called with its default level 0. -/
def saveImageFile (e : Ext) (env : FileEnv) (b : Buffer F32) (path : String) : List Effect × Outcome Status :=
  if env.canWrite path then
    match serialize e b [] 0 with
    | .ok (true, data) => (.create path :: writeData env path data, .ok .kOk)
    | .ok (false, _) => ([.create path], .ok .kWrongData)
    | .throw => ([.create path], .throw)
    | .ub => ([.create path], .ub)
  else ([], .ok .kIOError)

/-- `Load`, sources/img/wavelet_image.cc:153-167; `none` is a null pointer. -/
def loadImageFile (e : Ext) (env : FileEnv) (fs : Files) (path : String) : Outcome (Option (Buffer F32)) :=
  match readFile env fs path with
  | some blob => parse e blob
  | none => .ok none

end WB
