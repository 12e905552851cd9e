import Verif.Model.FloatBits
import Verif.Model.Denoise

/-!
The denoisers of `Model/Denoise` on 32-bit patterns: what `size_t` to `float`, `<`, `std::abs` and `std::fabs` are.
-/

namespace WB

open Spec

/-- Not a number. -/
def isNaN (x : F32) : Prop := expBits x = 255 ∧ x.toNat % 2 ^ 23 ≠ 0

/-- `std::abs`, `std::fabs` (wavelet_buffer/denoise_algorithms.h:83, 103, 143 and 177): the sign bit is cleared. -/
def absBits (x : F32) : F32 := BitVec.ofNat 32 (x.toNat % 2 ^ 31)

namespace Bits
variable {o : FloatOps}

/-- Conversion of `size_t` to `float`, wavelet_buffer/denoise_algorithms.h:112, 149 and 183 (`a_ * step`, `values.size() * compression_level_`). -/
noncomputable instance : NatCast (Bits o) := ⟨fun n => o.store n⟩

/-- `<` of `float`: false with a NaN; `number` of an infinity is `± 2^128`, beyond all finite numbers. -/
instance : LT (Bits o) := ⟨fun x y => ¬ isNaN x ∧ ¬ isNaN y ∧ number x < number y⟩

noncomputable instance : DecidableLT (Bits o) := fun _ _ => Classical.propDecidable _

end Bits

/-- `ThresholdAbsDenoiseAlgorithm<float>(a, b)`. -/
noncomputable def bitsThreshold (o : FloatOps) (a b : F32) : Denoiser F32 := thresholdDenoiser (α := Bits o) absBits a b

/-- Conversion of a `float` to `size_t` (the template argument of `std::min<size_t>`, wavelet_buffer/denoise_algorithms.h:149 and 183): the fraction is
dropped; a value outside the range of `size_t` is undefined behaviour. -/
noncomputable def sizeOfBits (x : F32) : Outcome ℕ :=
  open Classical in
  if finiteBits x ∧ (-1 : ℚ) < number x ∧ number x < 2 ^ 64 then .ok ⌊number x⌋₊ else .ub

/-- `SimpleDenoiseAlgorithm<float>` with two versions of `std::nth_element`. -/
noncomputable def bitsSimple (o : FloatOps) (nth1 : List (F32 × ℕ) → ℕ → List (F32 × ℕ)) (nth2 : List (F32 × ℕ × ℕ) → ℕ → List (F32 × ℕ × ℕ)) :
    SimpleExt (Bits o) := ⟨absBits, sizeOfBits, nth1, nth2⟩

end WB
