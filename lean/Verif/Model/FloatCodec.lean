import Verif.Model.FloatArith
import Verif.Model.Codec
import Verif.Model.Pixel

/-!
The JPEG codecs with `float` samples that can overflow.
-/

namespace WB

/-- `ToPixel<float>`, sources/img/jpeg_codecs.cc:26-30, for any sample. `none` stands for NaN too, whose conversion to `uint8_t` is undefined. -/
noncomputable def toPixelOv (r : Rounding) {Ω : ℝ} : Ov r.toFloat Ω → Outcome UInt8
  | some x => toPixel r x
  | none => .ub

/-- The conversions of sources/img/jpeg_codecs.cc:26-30, 67 and 220 with `float` samples; the JPEG library and the colour conversions are
parameters. -/
noncomputable def floatExt (r : Rounding) (Ω : ℝ) (load : Bytes → Outcome CImg) (save : CImg → ℕ → ℤ → Outcome Bytes)
    (rgbHsl hslRgb : Ov r.toFloat Ω → Ov r.toFloat Ω → Ov r.toFloat Ω → Outcome (Ov r.toFloat Ω × Ov r.toFloat Ω × Ov r.toFloat Ω)) :
    JpegExt (Ov r.toFloat Ω) :=
  ⟨load, save, fun k => Ov.of (ofPixel r k), toPixelOv r, rgbHsl, hslRgb⟩

end WB
