import Verif.Model.Denoise
import Mathlib.Data.Real.Basic

/-!
Model of `sources/img/color_space.cc`, over the real numbers: samples, intermediate results and literals are exact
(`0.001f` is 1/1000, `1.f / 3.f` is 1/3).
-/

namespace WB

/-- Division; dividing by zero is kept apart. -/
noncomputable def divBy (x y : ℝ) : Outcome ℝ := if y = 0 then .ub else .ok (x / y)

/-- Hue before it is wrapped, sources/img/color_space.cc:33-45. -/
noncomputable def rawHue (r g b : ℝ) : Outcome ℝ := do
  let mx := max r (max g b)
  let diff := mx - min r (min g b)
  let h ← if |mx - r| < 1 / 10000 then divBy (g - b) diff
    else if |mx - g| < 1 / 10000 then do
      let q ← divBy (b - r) diff
      pure (2 + q)
    else do
      let q ← divBy (r - g) diff
      pure (4 + q)
  pure (h / 6)

/-- Saturation, sources/img/color_space.cc:26-31. -/
noncomputable def rawSat (diff sum : ℝ) : Outcome ℝ :=
  if sum / 2 < 1 / 2 then divBy diff sum else divBy diff (2 - sum)

/-- `RGBToHSL`, sources/img/color_space.cc:9-52: hue, saturation, luminance. -/
noncomputable def rgbToHsl (r g b : ℝ) : Outcome (ℝ × ℝ × ℝ) :=
  let mn := min r (min g b)
  let mx := max r (max g b)
  let diff := mx - mn
  let sum := mx + mn
  if |diff| < 1 / 1000 then .ok (0, 0, r)
  else do
    let s ← rawSat diff sum
    let h ← rawHue r g b
    pure (if h < 0 then h + 1 else h, s, sum / 2)

/-- The piecewise linear ramp that `HSLToRGB` writes out for red, green and blue, sources/img/color_space.cc:83-113. -/
noncomputable def hueRamp (t1 t2 t : ℝ) : ℝ :=
  if t < 1 / 6 then t2 + (t1 - t2) * 6 * t
  else if t < 1 / 2 then t1
  else if t < 2 / 3 then t2 + (t1 - t2) * (2 / 3 - t) * 6
  else t2

/-- `HSLToRGB`, sources/img/color_space.cc:54-115: red, green, blue. -/
noncomputable def hslToRgb (h s l : ℝ) : ℝ × ℝ × ℝ :=
  if |s| < 1 / 10000 then (l, l, l)
  else
    let t1 := if l < 1 / 2 then l * (1 + s) else (l + s) - l * s
    let t2 := 2 * l - t1
    let tr := if h + 1 / 3 > 1 then h + 1 / 3 - 1 else h + 1 / 3
    let tb := if h - 1 / 3 < 0 then h - 1 / 3 + 1 else h - 1 / 3
    (hueRamp t1 t2 tr, hueRamp t1 t2 h, hueRamp t1 t2 tb)

/-- `img[ch](y, x) = v`; a missing channel or pixel is undefined behaviour. -/
def imgPut {α : Type} [Inhabited α] (img : List (Mat α)) (ch y x : ℕ) (v : α) : Outcome (List (Mat α)) := do
  let m ← rd img ch
  let m' ← matPut m y x v
  pure (img.set ch m')

/-- `img[ch](y, x)`; a missing channel or pixel is undefined behaviour. -/
def imgAt {α : Type} [Inhabited α] (img : List (Mat α)) (ch y x : ℕ) : Outcome α := do
  let m ← rd img ch
  matAt m y x

/-- Body of the loops in `ConvertRgbToHsl` and `ConvertHslToRgb`: one pixel is read, converted and written back,
sources/img/color_space.cc:128-132 and 150-154. -/
def convertPixel {α : Type} [Inhabited α] (f : α → α → α → Outcome (α × α × α)) (sc : ℕ) (img : List (Mat α)) (y x : ℕ) :
    Outcome (List (Mat α)) := do
  let a ← imgAt img sc y x
  let b ← imgAt img (sc + 1) y x
  let c ← imgAt img (sc + 2) y x
  let o ← f a b c
  let img ← imgPut img sc y x o.1
  let img ← imgPut img (sc + 1) y x o.2.1
  imgPut img (sc + 2) y x o.2.2

/-- The loops, sources/img/color_space.cc:126-134 and 148-156: sizes are those of the first channel. The assertion about
the number of channels is not relied on; missing channels are undefined behaviour. -/
def convertImage {α : Type} [Inhabited α] (f : α → α → α → Outcome (α × α × α)) (img : List (Mat α)) (sc : ℕ) :
    Outcome (List (Mat α)) := do
  let m ← rd img sc
  (List.range m.rows).foldlM (fun img y => (List.range m.cols).foldlM (fun img x => convertPixel f sc img y x) img) img

/-- `ConvertRgbToHsl`, sources/img/color_space.cc:117-135. -/
noncomputable def convertRgbToHsl (img : List (Mat ℝ)) (sc : ℕ) : Outcome (List (Mat ℝ)) := convertImage rgbToHsl img sc

/-- `ConvertHslToRgb`, sources/img/color_space.cc:137-157. -/
noncomputable def convertHslToRgb (img : List (Mat ℝ)) (sc : ℕ) : Outcome (List (Mat ℝ)) :=
  convertImage (fun h s l => .ok (hslToRgb h s l)) img sc

end WB
