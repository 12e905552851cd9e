import Verif.Model.AnyOrder
import Verif.Model.BitsColour

/-!
Model of `HSLToRGB` (`sources/img/color_space.cc:54-115`) compiled with fused multiply-add, on bit patterns. A compiler may leave out the rounding of a product
where it is added to something (`-ffp-contract`); GCC does so unless told otherwise where the processor has the instruction, as on the ARM processors of
`conan/linux_armv8`, for which `.github/workflows/ci.yml:162-174` builds. `RGBToHSL` adds no product.
-/

namespace WB

open Spec Bits

/-- The places in `HSLToRGB` where a product is added. -/
inductive Fusion where
  | lumSat                -- line 67: `luminance * saturation`
  | twice                 -- line 70: `2.f * luminance`
  | first                 -- line 70: `temp1`, if it is the product of line 65
  | gap (c : Fin 3)       -- `temp1 - temp2` for red, green and blue, if `temp1` is the product of line 65
  | ramp (c : Fin 3)      -- lines 84 and 88, 95 and 99, 106 and 110: the last product
  deriving DecidableEq

variable {o : FusedOps}

/-- Multiply and add with one rounding. -/
def fmaBits (x y z : Bits o.toFloatOps) : Bits o.toFloatOps := o.fma x y z

/-- The ramp that `HSLToRGB` writes out for red, green and blue, sources/img/color_space.cc:83-113. `g` is `temp1 - temp2`. -/
noncomputable def hueRampFused (dv : F32 → F32 → F32) (fused : Bool) (g t1 t2 t : Bits o.toFloatOps) : Bits o.toFloatOps :=
  if t < divide dv (lit _ 1) (lit _ 6) then if fused then fmaBits (g * lit _ 6) t t2 else t2 + g * lit _ 6 * t
  else if t < lit _ (1 / 2) then t1
  else if t < divide dv (lit _ 2) (lit _ 3) then
    if fused then fmaBits (g * sub (divide dv (lit _ 2) (lit _ 3)) t) (lit _ 6) t2 else t2 + g * sub (divide dv (lit _ 2) (lit _ 3)) t * lit _ 6
  else t2

/-- `HSLToRGB`, sources/img/color_space.cc:54-115; `w` tells where a product is fused with the addition. -/
noncomputable def hslToRgbFused (rnd : Rounding) (dv : F32 → F32 → F32) (w : Fusion → Bool) (h s l : Bits o.toFloatOps) :
    Bits o.toFloatOps × Bits o.toFloatOps × Bits o.toFloatOps :=
  if s.abs.Below (rnd.toDouble (1 / 10000)) then (l, l, l)
  else
    let p := lit _ 1 + s
    let t1 := if l.Below (1 / 2) then l * p else if w .lumSat then fmaBits (-l) s (l + s) else sub (l + s) (l * s)
    let t2 := if l.Below (1 / 2) ∧ w .first = true then fmaBits (-l) p (lit _ 2 * l)
      else if w .twice then fmaBits (lit _ 2) l (-t1) else sub (lit _ 2 * l) t1
    let g := fun c => if l.Below (1 / 2) ∧ w (.gap c) = true then fmaBits l p (-t2) else sub t1 t2
    let tr := h + divide dv (lit _ 1) (lit _ 3)
    let tb := sub h (divide dv (lit _ 1) (lit _ 3))
    (hueRampFused dv (w (.ramp 0)) (g 0) t1 t2 (if lit _ 1 < tr then sub tr (lit _ 1) else tr), hueRampFused dv (w (.ramp 1)) (g 1) t1 t2 h,
      hueRampFused dv (w (.ramp 2)) (g 2) t1 t2 (if tb < 0 then tb + lit _ 1 else tb))

/-- The conversions of the codecs on bit patterns; the places where products are fused may differ from colour to colour, as they do when a loop has a
remainder that does not fill a vector register. -/
noncomputable def hslFusedExt (r : Rounding) (o : FusedOps) (dv : F32 → F32 → F32) (w : F32 → F32 → F32 → Fusion → Bool) (load : Bytes → Outcome CImg)
    (save : CImg → ℕ → ℤ → Outcome Bytes) : JpegExt (Bits o.toFloatOps) :=
  bitsExt r o.toFloatOps load save (fun x y z => .ok (rgbToHslBits dv x y z)) (fun x y z => .ok (hslToRgbFused r dv (w x y z) x y z))

end WB
