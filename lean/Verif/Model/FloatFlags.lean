import Verif.Model.FloatBits

/-!
Bit patterns that remember whether an operation on the way to them left the range of the normal numbers. The marks are not part of the program; they
follow its operations so that statements can speak of the numbers that no overflow or underflow went into.
-/

namespace WB

open Spec

/-- The smallest normal `float`. -/
noncomputable def minNormal : ℝ := 1 / 2 ^ 126

/-- A sum or product without overflow and underflow: the exact result is zero, or it is not below the smallest normal number and not above the largest after
rounding (IEEE 754, 7.4 and 7.5, tininess detected before rounding). -/
def InRange (r : Rounding) (v : ℝ) : Prop := v = 0 ∨ minNormal ≤ |v| ∧ |r.toFloat v| ≤ maxFloat

/-- A quotient without underflow, with one bit to spare because the division may be a multiplication by the reciprocal. -/
def InRangeDiv (v : ℝ) : Prop := v = 0 ∨ 2 * minNormal ≤ |v|

/-- A 32-bit pattern, and `true` if an operation with operands that are not finite, an overflow or an underflow went into it. -/
def Marked (_r : Rounding) (_o : FloatOps) : Type := F32 × Bool

namespace Marked
variable {r : Rounding} {o : FloatOps}

/-- The bits. -/
def bits (x : Marked r o) : F32 := x.1

/-- The mark. -/
def mark (x : Marked r o) : Bool := x.2

/-- Bits without mark. -/
def plain (x : F32) : Marked r o := (x, false)

open Classical in
/-- Addition, which marks its result. -/
noncomputable def add (x y : Marked r o) : Marked r o :=
  (o.add x.bits y.bits, x.mark || y.mark || !decide (finiteBits x.bits ∧ finiteBits y.bits ∧ InRange r ((number x.bits : ℝ) + number y.bits)))

open Classical in
/-- Multiplication, which marks its result. -/
noncomputable def mul (x y : Marked r o) : Marked r o :=
  (o.mul x.bits y.bits, x.mark || y.mark || !decide (finiteBits x.bits ∧ finiteBits y.bits ∧ InRange r ((number x.bits : ℝ) * number y.bits)))

open Classical in
/-- Division by the gain, which marks its result. -/
noncomputable def div (two : Bool) (s : ℕ) (x : Marked r o) : Marked r o :=
  (o.div two s x.bits, x.mark || !decide (finiteBits x.bits ∧ InRangeDiv ((number x.bits : ℝ) / (if two then 2 else Real.sqrt 2) ^ s)))

instance : Zero (Marked r o) := ⟨plain 0#32⟩
noncomputable instance : Add (Marked r o) := ⟨add⟩
noncomputable instance : Mul (Marked r o) := ⟨mul⟩
instance : Neg (Marked r o) := ⟨fun x => (o.neg x.bits, x.mark)⟩
instance : Inhabited (Marked r o) := ⟨plain (default : F32)⟩

end Marked

/-- `bitsKit` (the coefficients of sources/wavelet.cc:158-217 and 249, the division of sources/wavelet_utils.cc:428-435) with marks. -/
noncomputable def marksKit (r : Rounding) (o : FloatOps) : Kit (Marked r o) where
  dbwavf t := (dbCoeffs t).map (fun q : ℚ => Marked.plain (o.store (r.toDouble (q : ℝ))))
  mulSqrt2 x := (o.store (r.toDouble (r.toDouble (Real.sqrt 2) * (number x.bits : ℝ))), x.mark)
  divFactor two s x := x.div two s

end WB
