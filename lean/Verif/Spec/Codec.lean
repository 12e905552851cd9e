import Verif.Model.Codec
import Verif.Model.Pixel

/-! Vocabulary for statements about the codecs. -/

namespace WB

variable {α : Type} [Inhabited α]

/-- How many channels a codec reads and writes. -/
def CodecKind.needs : CodecKind → ℕ
  | .gray => 1
  | _ => 3

/-- The channels a codec needs are there, have one size, and that size is not empty. -/
def Encodable (kind : CodecKind) (im : List (Mat α)) (sc rows cols : ℕ) : Prop :=
  0 < rows ∧ 0 < cols ∧ ∀ c < kind.needs, ∃ m, im[sc + c]? = some m ∧ m.rows = rows ∧ m.cols = cols

/-- The sample of a channel at a place. -/
def sampleAt (im : List (Mat α)) (ch y x : ℕ) : α := (im.getD ch default).get y x

/-- Component `c` of a triple. -/
def comp (c : ℕ) (t : α × α × α) : α := if c = 0 then t.1 else if c = 1 then t.2.1 else t.2.2

/-- `toCol` is the colour an encoder takes from three samples: none for RGB and gray. -/
def colourSample (kind : CodecKind) (hr : α → α → α → α × α × α) (im : List (Mat α)) (sc y x c : ℕ) : α :=
  match kind with
  | .hsl => comp c (hr (sampleAt im sc y x) (sampleAt im (sc + 1) y x) (sampleAt im (sc + 2) y x))
  | _ => sampleAt im (sc + c) y x

/-- What decoders make of the pixel bytes. -/
def decodedSample (kind : CodecKind) (ofPx : UInt8 → α) (hl : α → α → α → α × α × α) (px : ℕ → UInt8) (c : ℕ) : α :=
  match kind with
  | .hsl => comp c (hl (ofPx (px 0)) (ofPx (px 1)) (ofPx (px 2)))
  | _ => ofPx (px c)

/-- The conversions used by the code, with given rounding and JPEG library; colour conversion in exact arithmetic. -/
noncomputable def codeExt (r : Rounding) (load : Bytes → Outcome CImg) (save : CImg → ℕ → ℤ → Outcome Bytes) : JpegExt ℝ :=
  ⟨load, save, ofPixel r, toPixel r, rgbToHsl, fun h s l => .ok (hslToRgb h s l)⟩

end WB
