import Verif.Model.BitsCodec
import Verif.Model.ColorFloat

/-!
Model of `RGBToHSL` and `HSLToRGB` (`sources/img/color_space.cc`) on the bit patterns of `float`, for all of them: also for infinities, NaN and for numbers
for which an operation overflows. Subtraction is the addition of the negated number. Assumes that the compiler neither keeps excess precision nor
fuses multiplications with additions.
-/

namespace WB

open Spec

/-- What the compiled code does where the sources divide two `float`s (sources/img/color_space.cc:24-45, 72-74 and 83-113) is IEEE 754: only quotients that
are within the range of the numbers are specified. -/
def DivCorrect (r : Rounding) (dv : F32 → F32 → F32) : Prop :=
  ∀ x y, finiteBits x → finiteBits y → number y ≠ 0 → |r.toFloat ((number x : ℝ) / number y)| ≤ maxFloat →
    finiteBits (dv x y) ∧ (number (dv x y) : ℝ) = r.toFloat ((number x : ℝ) / number y)

namespace Bits
variable {o : FloatOps}

/-- `float` subtraction. -/
def sub (x y : Bits o) : Bits o := x + -y

/-- A `float` literal. -/
noncomputable def lit (o : FloatOps) (v : ℝ) : Bits o := o.store v

/-- `std::abs`. -/
def abs (x : Bits o) : Bits o := absBits x

/-- Comparison of a `float` with a `double` that has the value `v`. -/
def Below (x : Bits o) (v : ℝ) : Prop := ¬ isNaN x ∧ x.num < v

noncomputable instance (x : Bits o) (v : ℝ) : Decidable (x.Below v) := Classical.propDecidable _

/-- `float` division. -/
def divide (dv : F32 → F32 → F32) (x y : Bits o) : Bits o := dv x y

/-- `std::min` of an initializer list, two at a time. -/
noncomputable def mn (x y : Bits o) : Bits o := if y < x then y else x

/-- `std::max` of an initializer list, two at a time. -/
noncomputable def mx (x y : Bits o) : Bits o := if x < y then y else x

end Bits

open Bits

variable {o : FloatOps}

/-- Hue, sources/img/color_space.cc:33-49. -/
noncomputable def hueBits (dv : F32 → F32 → F32) (r g b mxc diff : Bits o) : Bits o :=
  let h := divide dv (if (sub mxc r).abs < lit o (1 / 10000) then divide dv (sub g b) diff
    else if (sub mxc g).abs < lit o (1 / 10000) then lit o 2 + divide dv (sub b r) diff
    else lit o 4 + divide dv (sub r g) diff) (lit o 6)
  if h < 0 then h + lit o 1 else h

/-- `RGBToHSL`, sources/img/color_space.cc:9-52. The literal `0.5` of line 27 is a `double`. -/
noncomputable def rgbToHslBits (dv : F32 → F32 → F32) (r g b : Bits o) : Bits o × Bits o × Bits o :=
  let mnc := mn (mn r g) b
  let mxc := mx (mx r g) b
  let diff := sub mxc mnc
  let sum := mxc + mnc
  if diff.abs < lit o (1 / 1000) then (0, 0, r)
  else
    let l := divide dv sum (lit o 2)
    (hueBits dv r g b mxc diff, if l.Below (1 / 2) then divide dv diff sum else divide dv diff (sub (lit o 2) sum), l)

/-- The ramp that `HSLToRGB` writes out for red, green and blue, sources/img/color_space.cc:83-113. -/
noncomputable def hueRampBits (dv : F32 → F32 → F32) (t1 t2 t : Bits o) : Bits o :=
  if t < divide dv (lit o 1) (lit o 6) then t2 + sub t1 t2 * lit o 6 * t
  else if t < lit o (1 / 2) then t1
  else if t < divide dv (lit o 2) (lit o 3) then t2 + sub t1 t2 * sub (divide dv (lit o 2) (lit o 3)) t * lit o 6
  else t2

/-- `HSLToRGB`, sources/img/color_space.cc:54-115. The literals `0.0001` of line 56 and `0.5` of line 64 are `double`s. -/
noncomputable def hslToRgbBits (rnd : Rounding) (dv : F32 → F32 → F32) (h s l : Bits o) : Bits o × Bits o × Bits o :=
  if s.abs.Below (rnd.toDouble (1 / 10000)) then (l, l, l)
  else
    let t1 := if l.Below (1 / 2) then l * (lit o 1 + s) else sub (l + s) (l * s)
    let t2 := sub (lit o 2 * l) t1
    let tr := h + divide dv (lit o 1) (lit o 3)
    let tb := sub h (divide dv (lit o 1) (lit o 3))
    (hueRampBits dv t1 t2 (if lit o 1 < tr then sub tr (lit o 1) else tr), hueRampBits dv t1 t2 h,
      hueRampBits dv t1 t2 (if tb < 0 then tb + lit o 1 else tb))

/-- The conversions of the codecs, all on bit patterns. -/
noncomputable def hslBitsExt (r : Rounding) (o : FloatOps) (dv : F32 → F32 → F32) (load : Bytes → Outcome CImg)
    (save : CImg → ℕ → ℤ → Outcome Bytes) : JpegExt (Bits o) :=
  bitsExt r o load save (fun x y z => .ok (rgbToHslBits dv x y z)) (fun x y z => .ok (hslToRgbBits r dv x y z))

end WB
