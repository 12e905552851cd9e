import Verif.Model.Pixel

/-! What it means to round to the nearest number of a binary floating point format. -/

namespace WB

/-- The finite numbers of a binary format with `p` significant bits and least exponent `emin` (of the last bit), without an
upper limit. -/
def FloatNumbers (p : ℕ) (emin : ℤ) : Set ℝ := {x | ∃ m e : ℤ, |m| < 2 ^ p ∧ emin ≤ e ∧ x = m * (2 : ℝ) ^ e}

/-- `f` rounds every number to a nearest one in `S`; how ties are broken is left open. -/
def RoundsToNearest (S : Set ℝ) (f : ℝ → ℝ) : Prop := ∀ x, f x ∈ S ∧ ∀ y ∈ S, |f x - x| ≤ |y - x|

/-- IEEE 754 binary32 and binary64. -/
def Rounding.IEEE (r : Rounding) : Prop :=
  RoundsToNearest (FloatNumbers 24 (-149)) r.toFloat ∧ RoundsToNearest (FloatNumbers 53 (-1074)) r.toDouble

end WB
