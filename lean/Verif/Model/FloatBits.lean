import Verif.Model.FloatArith
import Verif.Model.Serialize
import Verif.Spec.Lossy
import Verif.Spec.Pixel

/-!
Arithmetic on the bit patterns that the buffer stores and the archive contains, so that `Decompose`, `Serialize`, `Parse` and `Compose` can be run one
after the other on the same data.
-/

namespace WB

open Spec

/-- What the compiled code does with 32-bit patterns where the sources add, multiply and negate `float`s, convert a `double` (given by its value) to `float`
(sources/wavelet.cc:158-217 and 249), and divide by the gain (sources/wavelet_utils.cc:428-435). -/
structure FloatOps where
  add : F32 → F32 → F32
  mul : F32 → F32 → F32
  neg : F32 → F32
  store : ℝ → F32
  div : Bool → ℕ → F32 → F32

/-- Neither infinity nor NaN. -/
def finiteBits (x : F32) : Prop := expBits x < 255

/-- The operations are those of IEEE 754 with the rounding `r`: every operation is rounded on its own (no fused multiply-add, no wider registers). Only results
that are within the range of the numbers are specified; infinities, NaN and the signs of zeros are left open. The division by the gain may be
off by four units in the last place, which covers a division and a multiplication by the reciprocal in `float` or `double`. -/
structure FloatOps.Correct (o : FloatOps) (r : Rounding) : Prop where
  add : ∀ x y, finiteBits x → finiteBits y → |r.toFloat ((number x : ℝ) + number y)| ≤ maxFloat →
    finiteBits (o.add x y) ∧ (number (o.add x y) : ℝ) = r.toFloat ((number x : ℝ) + number y)
  mul : ∀ x y, finiteBits x → finiteBits y → |r.toFloat ((number x : ℝ) * number y)| ≤ maxFloat →
    finiteBits (o.mul x y) ∧ (number (o.mul x y) : ℝ) = r.toFloat ((number x : ℝ) * number y)
  neg : ∀ x, finiteBits x → finiteBits (o.neg x) ∧ number (o.neg x) = -number x
  store : ∀ v, |r.toFloat v| ≤ maxFloat → finiteBits (o.store v) ∧ (number (o.store v) : ℝ) = r.toFloat v
  div : ∀ (b : Bool) (s : ℕ) (x : F32), finiteBits x → finiteBits (o.div b s x) ∧
    |(number (o.div b s x) : ℝ) - number x / (if b then 2 else Real.sqrt 2) ^ s| ≤
      1 / 2 ^ 22 * |(number x : ℝ) / (if b then 2 else Real.sqrt 2) ^ s| + 1 / 2 ^ 149

/-- 32-bit patterns with the operations `o`. -/
def Bits (_o : FloatOps) : Type := F32

namespace Bits
variable {o : FloatOps}

instance : Zero (Bits o) := ⟨(0#32 : F32)⟩
instance : Add (Bits o) := ⟨fun x y => o.add x y⟩
instance : Mul (Bits o) := ⟨fun x y => o.mul x y⟩
instance : Neg (Bits o) := ⟨fun x => o.neg x⟩
instance : Inhabited (Bits o) := inferInstanceAs (Inhabited F32)

/-- The number a pattern stands for, as a real number. -/
noncomputable def num (x : Bits o) : ℝ := (number x : ℚ)

/-- Neither infinity nor NaN. -/
def Finite (x : Bits o) : Prop := finiteBits x

end Bits

/-- `floatKit` on bit patterns: the decimals of `dbwavf` are `double` literals stored in a vector of `float` (sources/wavelet.cc:158-217); `std::sqrt(2) * x[i]`
is computed in `double` and stored as `float` (line 249); the division by the gain is that of sources/wavelet_utils.cc:428-435. -/
noncomputable def bitsKit (r : Rounding) (o : FloatOps) : Kit (Bits o) where
  dbwavf t := (dbCoeffs t).map (fun q : ℚ => o.store (r.toDouble (q : ℝ)))
  mulSqrt2 x := o.store (r.toDouble (r.toDouble (Real.sqrt 2) * Bits.num x))
  divFactor flag s x := o.div flag s x

end WB
