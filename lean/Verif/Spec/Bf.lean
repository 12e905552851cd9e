import Mathlib.Data.BitVec

/-! Rounding a 32-bit float to fewer fraction bits: independent vocabulary for the version-2 compressor. -/

namespace WB.Spec

/-- The 8 exponent bits. -/
def expBits (x : BitVec 32) : ℕ := x.toNat / 2 ^ 23 % 256

/-- The bits of `x` after rounding to `L` fraction bits, halves away from zero: half a unit of the last kept place is added to the bit
pattern (a carry runs into the exponent) and the places behind it are cleared. -/
def roundBits (L : ℕ) (x : BitVec 32) : ℕ := (x.toNat + 2 ^ (23 - L) / 2) / 2 ^ (23 - L) * 2 ^ (23 - L)

/-- `x` rounded to `L` fraction bits, where results below the smallest normal number become 0. -/
def roundTo (L : ℕ) (x : BitVec 32) : BitVec 32 :=
  if roundBits L x / 2 ^ 23 % 256 = 0 then 0 else BitVec.ofNat 32 (roundBits L x)

/-- `x` is finite and stays finite when rounded to `L` fraction bits. -/
def RoundsFinite (L : ℕ) (x : BitVec 32) : Prop := expBits x < 255 ∧ roundBits L x / 2 ^ 23 % 256 < 255

end WB.Spec
