import Mathlib.Data.Nat.Bitwise
import Mathlib.Data.List.Basic

/-! Bit strings: independent vocabulary for the legacy bit stream. -/

namespace WB.Spec

/-- The `k` low bits of `n`, most significant first. -/
def bitsOf (k n : ℕ) : List Bool := (List.range k).map fun i => n.testBit (k - 1 - i)

/-- The number written by a bit string, most significant bit first. -/
def ofBits (l : List Bool) : ℕ := l.foldl (fun acc b => 2 * acc + b.toNat) 0

end WB.Spec
