import Verif.Spec.Bf
import Mathlib.Data.Rat.Defs
import Mathlib.Algebra.Order.Field.Rat
import Mathlib.Algebra.Order.Field.Power

/-! The number a 32-bit float stands for. -/

namespace WB.Spec

/-- The magnitude of a finite float with the 31 low bits `n`: subnormal numbers are multiples of 2^-149, a normal number with exponent
bits `e` has 24 significant bits of which the last is worth 2^(e-150). -/
def magnitude (n : ℕ) : ℚ :=
  if n / 2 ^ 23 = 0 then (n : ℚ) * 2 ^ (-149 : ℤ) else ((n % 2 ^ 23 + 2 ^ 23 : ℕ) : ℚ) * 2 ^ (((n / 2 ^ 23 : ℕ) : ℤ) - 150)

/-- The number of a finite float. -/
def number (x : BitVec 32) : ℚ := (if x.toNat / 2 ^ 31 = 0 then 1 else -1) * magnitude (x.toNat % 2 ^ 31)

end WB.Spec
