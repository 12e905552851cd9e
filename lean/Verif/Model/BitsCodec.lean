import Verif.Model.FloatDenoise
import Verif.Model.Codec
import Verif.Model.Pixel

/-!
The JPEG codecs on the bit patterns that the buffer stores.
-/

namespace WB

open Classical in
/-- `ToPixel<float>`, sources/img/jpeg_codecs.cc:26-30, for a bit pattern. `std::min<T>(1, x)` is `x < 1 ? x : 1`, so a NaN becomes 1; `num` of an
infinity is `± 2^128`, which is clamped as the code clamps the infinity. -/
noncomputable def toPixelBits (r : Rounding) {o : FloatOps} (x : Bits o) : Outcome UInt8 := toPixel r (if isNaN x then 1 else x.num)

/-- The conversions of sources/img/jpeg_codecs.cc:26-30, 67 and 220 with samples as bit patterns: `img(j, i, c) / 255.` is a `double` that is stored
as `float`. The JPEG library and the colour conversions are parameters. -/
noncomputable def bitsExt (r : Rounding) (o : FloatOps) (load : Bytes → Outcome CImg) (save : CImg → ℕ → ℤ → Outcome Bytes)
    (rgbHsl hslRgb : Bits o → Bits o → Bits o → Outcome (Bits o × Bits o × Bits o)) : JpegExt (Bits o) :=
  ⟨load, save, fun k => o.store (r.toDouble (k.toNat / 255)), toPixelBits r, rgbHsl, hslRgb⟩

end WB
