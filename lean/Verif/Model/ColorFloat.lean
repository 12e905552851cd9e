import Verif.Model.Codec
import Verif.Model.Pixel

/-!
Model of `RGBToHSL` and `HSLToRGB` (`sources/img/color_space.cc`) in `float` arithmetic: the same operations in the same order as in
`Model/Color`, with every result and every literal rounded. `fl` is the rounding to `float`. A division by zero (infinity or NaN in the code)
is kept apart as in `Model/Color`; overflow is not represented. Assumes that the compiler neither keeps excess precision nor fuses
multiplications with additions.
-/

namespace WB

/-- Division in `float`. -/
noncomputable def divF (fl : ℝ → ℝ) (x y : ℝ) : Outcome ℝ := if y = 0 then .ub else .ok (fl (x / y))

/-- Hue before it is wrapped, sources/img/color_space.cc:33-45. -/
noncomputable def rawHueF (fl : ℝ → ℝ) (r g b : ℝ) : Outcome ℝ := do
  let mx := max r (max g b)
  let diff := fl (mx - min r (min g b))
  let h ← if |fl (mx - r)| < fl (1 / 10000) then divF fl (fl (g - b)) diff
    else if |fl (mx - g)| < fl (1 / 10000) then do
      let q ← divF fl (fl (b - r)) diff
      pure (fl (2 + q))
    else do
      let q ← divF fl (fl (r - g)) diff
      pure (fl (4 + q))
  pure (fl (h / 6))

/-- Luminance and saturation, sources/img/color_space.cc:23-31. The comparison with `0.5` is exact. -/
noncomputable def rawSatF (fl : ℝ → ℝ) (diff sum : ℝ) : Outcome ℝ :=
  if fl (sum / 2) < 1 / 2 then divF fl diff sum else divF fl diff (fl (2 - sum))

/-- `RGBToHSL`, sources/img/color_space.cc:9-52. -/
noncomputable def rgbToHslF (fl : ℝ → ℝ) (r g b : ℝ) : Outcome (ℝ × ℝ × ℝ) :=
  let mn := min r (min g b)
  let mx := max r (max g b)
  let diff := fl (mx - mn)
  let sum := fl (mx + mn)
  if |diff| < fl (1 / 1000) then .ok (0, 0, r)
  else do
    let s ← rawSatF fl diff sum
    let h ← rawHueF fl r g b
    pure (if h < 0 then fl (h + 1) else h, s, fl (sum / 2))

/-- The ramp that `HSLToRGB` writes out for red, green and blue, sources/img/color_space.cc:83-113. -/
noncomputable def hueRampF (fl : ℝ → ℝ) (t1 t2 t : ℝ) : ℝ :=
  if t < fl (1 / 6) then fl (t2 + fl (fl (fl (t1 - t2) * 6) * t))
  else if t < 1 / 2 then t1
  else if t < fl (2 / 3) then fl (t2 + fl (fl (fl (t1 - t2) * fl (fl (2 / 3) - t)) * 6))
  else t2

/-- `HSLToRGB`, sources/img/color_space.cc:54-115. The literal `0.0001` of line 56 is a `double`. -/
noncomputable def hslToRgbF (r : Rounding) (h s l : ℝ) : ℝ × ℝ × ℝ :=
  let fl := r.toFloat
  if |s| < r.toDouble (1 / 10000) then (l, l, l)
  else
    let t1 := if l < 1 / 2 then fl (l * fl (1 + s)) else fl (fl (l + s) - fl (l * s))
    let t2 := fl (fl (2 * l) - t1)
    let tr := fl (h + fl (1 / 3))
    let tb := fl (h - fl (1 / 3))
    (hueRampF fl t1 t2 (if tr > 1 then fl (tr - 1) else tr), hueRampF fl t1 t2 h,
      hueRampF fl t1 t2 (if tb < 0 then fl (tb + 1) else tb))

/-- The conversions used by the codecs, pixels and colours in `float` arithmetic, with a given JPEG library. -/
noncomputable def colourExt (r : Rounding) (load : Bytes → Outcome CImg) (save : CImg → ℕ → ℤ → Outcome Bytes) : JpegExt ℝ :=
  ⟨load, save, ofPixel r, toPixel r, rgbToHslF r.toFloat, fun h s l => .ok (hslToRgbF r h s l)⟩

end WB
