import Verif.Model.Pixel
import Verif.Model.Codec

/-! The argument `quality` of the JPEG codecs, `sources/img/jpeg_codecs.cc`. -/

namespace WB

/-- A `float` given by a user. -/
inductive FloatArg where
  | num (x : ℝ)
  | inf (negative : Bool)
  | nan

open Classical in
/-- The constructors of the codecs with `CheckRangeQuality`, sources/img/jpeg_codecs.cc:20-24, 34-36, 129-131, 185-187: comparisons with NaN are
false. The result is the member `quality_`. -/
noncomputable def newCodec (q : FloatArg) : Outcome FloatArg :=
  match q with
  | .num x => if x < 0 ∨ 1 < x then .throw else .ok q
  | .inf _ => .throw
  | .nan => .ok q

open Classical in
/-- `static_cast<int>(quality_ * 100)`, sources/img/jpeg_codecs.cc:95 and 246: the product is a `float`, its fractional part is dropped; a value
that does not fit an `int` is undefined behaviour. -/
noncomputable def percent (r : Rounding) (q : FloatArg) : Outcome ℤ :=
  match q with
  | .num x =>
    let y := r.toFloat (x * 100)
    if -2 ^ 31 - 1 < y ∧ y < 2 ^ 31 then .ok (if 0 ≤ y then ⌊y⌋ else ⌈y⌉) else .ub
  | _ => .ub

/-- The library with the quality of a codec: the conversion happens in the call of `save_jpeg_buffer`, sources/img/jpeg_codecs.cc:94-95 and 245-246. -/
noncomputable def JpegExt.withQuality {α : Type} (e : JpegExt α) (r : Rounding) (q : FloatArg) : JpegExt α :=
  { e with save := fun img room _ => percent r q >>= fun p => e.save img room p }

/-- `Encode` of a codec with the given `quality_`, sources/img/jpeg_codecs.cc:75-99, 145-155, 227-249. -/
noncomputable def encodeQuality {α : Type} [Inhabited α] (e : JpegExt α) (r : Rounding) (kind : CodecKind) (q : FloatArg) (im : List (Mat α))
    (blob : Bytes) (sc : ℕ) : Run Bytes Bool := codecEncode (e.withQuality r q) kind 0 im blob sc

end WB
