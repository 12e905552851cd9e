import Verif.Model.FloatFlags
import Verif.Spec.Polarity

/-!
Vocabulary for samples in other units.
-/

namespace WB.Spec

/-- The same number in a unit that is `2 ^ e` times smaller. -/
def InUnit (e : ℤ) (x x' : F32) : Prop := finiteBits x ∧ finiteBits x' ∧ (number x' : ℝ) = 2 ^ e * number x

/-- Results are rounded to a number of significant bits: numbers that differ by a power of two are rounded alike, as long as they are not below the smallest
normal number. True of all rounding modes of IEEE 754. -/
structure UnitBlind (r : Rounding) (o : FloatOps) : Prop where
  zero : r.toFloat 0 = 0
  round : ∀ (e : ℤ) (x : ℝ), minNormal ≤ |x| → minNormal ≤ |2 ^ e * x| → r.toFloat (2 ^ e * x) = 2 ^ e * r.toFloat x
  div : ∀ (two : Bool) (s : ℕ) (e : ℤ) (x x' : F32), InUnit e x x' → InRangeDiv ((number x : ℝ) / (if two then 2 else Real.sqrt 2) ^ s) →
    InRangeDiv ((number x' : ℝ) / (if two then 2 else Real.sqrt 2) ^ s) → (number (o.div two s x') : ℝ) = 2 ^ e * number (o.div two s x)

/-- The same number in a unit that is `2 ^ e` times smaller, unless an overflow or underflow went into one of the two. -/
def InUnitOrMarked {r : Rounding} {o : FloatOps} (e : ℤ) (x x' : Marked r o) : Prop := x.mark = true ∨ x'.mark = true ∨ InUnit e x.bits x'.bits

/-- The bits of marked channels. -/
def unmark {r : Rounding} {o : FloatOps} (d : Decs (Marked r o)) : Decs F32 := d.map fun c => c.map fun m => m.map Marked.bits

end WB.Spec
