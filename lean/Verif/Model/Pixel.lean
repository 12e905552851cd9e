import Verif.Model.Outcome
import Mathlib.Algebra.Order.Archimedean.Real.Basic

/-!
Conversion between 8-bit pixels and samples (`sources/img/jpeg_codecs.cc`), with the rounding of `float` and `double` as
parameters.
-/

namespace WB

/-- How a C++ implementation rounds results to `float` and to `double`. -/
structure Rounding where
  toFloat : ℝ → ℝ
  toDouble : ℝ → ℝ

/-- A pixel read by the decoders, `img(j, i, c) / 255.` stored in a `float`: the division is done in `double`.
Sources/img/jpeg_codecs.cc:67 and 220. -/
noncomputable def ofPixel (r : Rounding) (k : UInt8) : ℝ := r.toFloat (r.toDouble (k.toNat / 255))

/-- `ToPixel<float>`, sources/img/jpeg_codecs.cc:26-30, for a sample that is a number: clamp, multiply in `float`, convert to
`uint8_t` (the fractional part is dropped; a value that does not fit is undefined behaviour). -/
noncomputable def toPixel (r : Rounding) (x : ℝ) : Outcome UInt8 :=
  let y := r.toFloat (max 0 (min 1 x) * 255)
  if -1 < y ∧ y < 256 then .ok (UInt8.ofNat ⌊y⌋₊) else .ub

end WB
