import Verif.Spec.Units

/-!
Vocabulary for archives in other units.
-/

namespace WB.Spec

/-- The same number in a unit that is `2 ^ u` times smaller; zero, or not below the smallest normal number in either unit. -/
def NormalInUnit (u : ℤ) (x x' : F32) : Prop :=
  InUnit u x x' ∧ (number x = 0 ∨ minNormal ≤ |(number x : ℝ)| ∧ minNormal ≤ |(number x' : ℝ)|)

/-- Coefficients without marks. -/
def plainDecs (r : Rounding) (o : FloatOps) (d : Decs F32) : Decs (Marked r o) := d.map fun c => c.map fun m => m.map Marked.plain

end WB.Spec
