import Verif.Model.FloatCodec
import Verif.Model.ColorFloat

/-!
The HSL codec with `float` samples that can overflow. The conversions of `Model/ColorFloat` do not represent overflow. They are used here only
for arguments for which no operation in them can overflow; for others the result is taken as not finite, whatever the program computes.
-/

namespace WB

/-- Three numbers as numbers with overflow. -/
def Ov.triple {rnd : ℝ → ℝ} {Ω : ℝ} (c : ℝ × ℝ × ℝ) : Ov rnd Ω × Ov rnd Ω × Ov rnd Ω := (Ov.of c.1, Ov.of c.2.1, Ov.of c.2.2)

/-- `RGBToHSL`, sources/img/color_space.cc:9-52, for samples between 0 and 1. The decoder calls it with such samples only
(sources/img/jpeg_codecs.cc:132-143). -/
noncomputable def rgbToHslOv (r : Rounding) {Ω : ℝ} : Ov r.toFloat Ω → Ov r.toFloat Ω → Ov r.toFloat Ω →
    Outcome (Ov r.toFloat Ω × Ov r.toFloat Ω × Ov r.toFloat Ω)
  | some x, some y, some z => if (0 ≤ x ∧ x ≤ 1) ∧ (0 ≤ y ∧ y ≤ 1) ∧ (0 ≤ z ∧ z ≤ 1) then do
      let d ← rgbToHslF r.toFloat x y z
      pure (Ov.triple d)
    else .ok (none, none, none)
  | _, _, _ => .ok (none, none, none)

/-- `HSLToRGB`, sources/img/color_space.cc:54-115, for samples up to 1024. -/
noncomputable def hslToRgbOv (r : Rounding) {Ω : ℝ} : Ov r.toFloat Ω → Ov r.toFloat Ω → Ov r.toFloat Ω →
    Outcome (Ov r.toFloat Ω × Ov r.toFloat Ω × Ov r.toFloat Ω)
  | some h, some s, some l => if |h| ≤ 1024 ∧ |s| ≤ 1024 ∧ |l| ≤ 1024 then .ok (Ov.triple (hslToRgbF r h s l)) else .ok (none, none, none)
  | _, _, _ => .ok (none, none, none)

/-- The conversions of the codecs, all with `float` samples. -/
noncomputable def hslExt (r : Rounding) (load : Bytes → Outcome CImg) (save : CImg → ℕ → ℤ → Outcome Bytes) :
    JpegExt (Ov r.toFloat maxFloat) :=
  floatExt r maxFloat load save (rgbToHslOv r) (hslToRgbOv r)

end WB
