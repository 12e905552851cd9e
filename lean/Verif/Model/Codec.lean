import Verif.Model.Color
import Verif.Model.Serialize

/-!
Model of the JPEG codecs, `sources/img/jpeg_codecs.cc`. The library that reads and writes JPEG data (CImg with libjpeg) is a
parameter. Not modelled: messages on the error stream and failing allocations.
-/

namespace WB

/-- `CImg<unsigned char>` with depth 1: a plane of `width * height` bytes for every channel. -/
structure CImg where
  width : ℕ
  height : ℕ
  spectrum : ℕ
  data : Bytes
  wf : data.length = width * height * spectrum

/-- `img(x, y, c)` does not check its arguments: outside the image it is undefined behaviour. -/
def CImg.at (im : CImg) (x y c : ℕ) : Outcome UInt8 :=
  if x < im.width ∧ y < im.height ∧ c < im.spectrum then rd im.data (x + y * im.width + c * (im.width * im.height)) else .ub

/-- What the codecs take from outside: `load_jpeg_buffer` (an exception of the library is `throw`), `save_jpeg_buffer` with
the room offered and the quality in percent, and the conversions of samples. -/
structure JpegExt (α : Type) where
  load : Bytes → Outcome CImg
  save : CImg → ℕ → ℤ → Outcome Bytes
  ofPx : UInt8 → α
  toPx : α → Outcome UInt8
  rgbHsl : α → α → α → Outcome (α × α × α)
  hslRgb : α → α → α → Outcome (α × α × α)

/-- The three codec classes. -/
inductive CodecKind where
  | rgb | hsl | gray
  deriving DecidableEq

/-- `channel_number()`, wavelet_buffer/img/jpeg_codecs.h. -/
def CodecKind.channels : CodecKind → ℕ
  | .rgb => 3
  | .hsl => 3
  | .gray => 1

variable {α : Type} [Inhabited α]

/-- A matrix filled element by element. -/
def fillMat (rows cols : ℕ) (f : ℕ → ℕ → Outcome α) : Outcome (Mat α) := do
  let l ← (List.range (rows * cols)).mapM (fun n => f (n / cols) (n % cols))
  pure (Mat.ofFn rows cols fun i j => l.getD (i * cols + j) default)

/-- `im.resize(n)` when it has fewer than `n` channels; the new ones are 0×0. -/
def growTo (im : List (Mat α)) (n : ℕ) : List (Mat α) :=
  if im.length < n then im ++ List.replicate (n - im.length) Mat.empty else im

/-- One channel of a decoded image, sources/img/jpeg_codecs.cc:63-69 and 216-222. -/
def decodeChannel (e : JpegExt α) (img : CImg) (c : ℕ) : Outcome (Mat α) :=
  fillMat img.height img.width fun i j => do
    let p ← img.at j i c
    pure (e.ofPx p)

/-- `im[ch] = m`. -/
def putChannel (im : List (Mat α)) (ch : ℕ) (m : Mat α) : Outcome (List (Mat α)) :=
  if ch < im.length then .ok (im.set ch m) else .ub

/-- `RgbJpegCodec::Decode` after loading, sources/img/jpeg_codecs.cc:54-72; `start_channel + 3` is a `size_t`. -/
def decodeRgb (e : JpegExt α) (img : CImg) (im : List (Mat α)) (sc : ℕ) : Outcome (List (Mat α)) :=
  (List.range' sc ((sc + 3) % 2 ^ 64 - sc)).foldlM (fun im ch => do
    let m ← decodeChannel e img (ch - sc)
    putChannel im ch m) (growTo im ((sc + 3) % 2 ^ 64))

/-- `GrayJpegCodec::Decode` after loading, sources/img/jpeg_codecs.cc:208-224. -/
def decodeGray (e : JpegExt α) (img : CImg) (im : List (Mat α)) (sc : ℕ) : Outcome (List (Mat α)) := do
  let m ← decodeChannel e img 0
  putChannel (growTo im ((sc + 1) % 2 ^ 64)) sc m

/-- `Decode` of the three codecs, sources/img/jpeg_codecs.cc:38-73, 132-143, 189-225: what is returned and the image after it.
Exceptions of the library are caught. -/
def codecDecode (e : JpegExt α) (kind : CodecKind) (blob : Bytes) (im : List (Mat α)) (sc : ℕ) :
    Outcome (Bool × List (Mat α)) :=
  if blob = [] then .ok (false, im)
  else match e.load blob with
    | .throw => .ok (false, im)
    | .ub => .ub
    | .ok img => match kind with
      | .rgb => do
        let im' ← decodeRgb e img im sc
        pure (true, im')
      | .hsl => do
        let im' ← decodeRgb e img im sc
        let im'' ← convertImage e.rgbHsl im' sc
        pure (true, im'')
      | .gray => do
        let im' ← decodeGray e img im sc
        pure (true, im')

/-- `checkChannelsShape` of the RGB and HSL codecs, sources/img/jpeg_codecs.cc:101-125 and 157-181. -/
def checkThree (im : List (Mat α)) (sc : ℕ) : Outcome Bool :=
  if im.length < (3 + sc) % 2 ^ 64 then .ok false
  else do
    let m ← rd im sc
    let same ← (List.range' (sc + 1) ((sc + 3) % 2 ^ 64 - (sc + 1))).foldlM (fun good i => do
      if good then do
        let m' ← rd im i
        pure (decide (m'.rows = m.rows ∧ m'.cols = m.cols))
      else pure false) true
    pure (same && decide (m.rows ≠ 0 ∧ m.cols ≠ 0))

/-- `checkChannelsShape` of the gray codec, sources/img/jpeg_codecs.cc:251-264. -/
def checkOne (im : List (Mat α)) (sc : ℕ) : Outcome Bool :=
  if im.length < (sc + 1) % 2 ^ 64 then .ok false
  else do
    let m ← rd im sc
    pure (decide (m.cols * m.rows ≠ 0))

/-- The image handed to the library, sources/img/jpeg_codecs.cc:81-91 and 233-241: sizes are those of the first channel.
Simplification: pixels are listed in the order of memory. -/
def toCImg (e : JpegExt α) (im : List (Mat α)) (sc n : ℕ) : Outcome CImg := do
  let m ← rd im sc
  let l ← (List.range (m.cols * m.rows * n)).mapM (fun k => do
    let x ← imgAt im (sc + k / (m.cols * m.rows)) (k % (m.cols * m.rows) / m.cols) (k % m.cols)
    e.toPx x)
  if h : l.length = m.cols * m.rows * n then pure ⟨m.cols, m.rows, n, l, h⟩ else .ub

/-- `blob->resize(n)`. -/
def resizeBytes (b : Bytes) (n : ℕ) : Bytes := b.take n ++ List.replicate (n - b.length) 0

/-- The rest of `Encode`: room for the library's output (an `unsigned int`), the call, the final size,
sources/img/jpeg_codecs.cc:92-98 and 243-248. An exception of the library leaves `Encode`. -/
def saveImage (e : JpegExt α) (quality : ℤ) (img : CImg) (channels : ℕ) (blob : Bytes) : Run Bytes Bool :=
  let room := (channels * img.height * img.width + 1000) % 2 ^ 32
  match e.save img room quality with
  | .ok out => .ok out true
  | .throw => .throw (resizeBytes blob room)
  | .ub => .ub

/-- `RgbJpegCodec::Encode`, sources/img/jpeg_codecs.cc:75-99. -/
def encodeRgb (e : JpegExt α) (quality : ℤ) (im : List (Mat α)) (blob : Bytes) (sc : ℕ) : Run Bytes Bool :=
  (Run.lift blob (checkThree im sc)).bind fun blob good =>
  if good then (Run.lift blob (toCImg e im sc 3)).bind fun blob img => saveImage e quality img im.length blob
  else .ok blob false

/-- `Encode` of the three codecs, sources/img/jpeg_codecs.cc:75-99, 145-155, 227-249. -/
def codecEncode (e : JpegExt α) (kind : CodecKind) (quality : ℤ) (im : List (Mat α)) (blob : Bytes) (sc : ℕ) :
    Run Bytes Bool :=
  match kind with
  | .rgb => encodeRgb e quality im blob sc
  | .hsl =>
    (Run.lift blob (checkThree im sc)).bind fun blob good =>
    if good then (Run.lift blob (convertImage e.hslRgb im sc)).bind fun blob cpy => encodeRgb e quality cpy blob sc
    else .ok blob false
  | .gray =>
    (Run.lift blob (checkOne im sc)).bind fun blob good =>
    if good then (Run.lift blob (toCImg e im sc 1)).bind fun blob img => saveImage e quality img im.length blob
    else .ok blob false

end WB
