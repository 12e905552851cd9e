import Verif.Spec.Signal
import Verif.Spec.FloatMetrics

/-!
Vocabulary for statements about the coefficients of quiet signals.
-/

namespace WB.Spec

/-- All entries are finite and no larger than `B`. -/
def EntriesWithin (B : ℝ) (m : Mat F32) : Prop :=
  ∀ i < m.rows, ∀ j < m.cols, finiteBits (m.get i j) ∧ |((number (m.get i j) : ℚ) : ℝ)| ≤ B

/-- All entries are the zero with the positive sign. -/
def ZeroBits (m : Mat F32) : Prop := ∀ i < m.rows, ∀ j < m.cols, m.get i j = 0#32

/-- The details of a channel have a property that depends on the step, its approximation another one. -/
def SubbandsSatisfy {α : Type} (p : Params) (detail : ℕ → Mat α → Prop) (approximation : Mat α → Prop) (c : List (Mat α)) : Prop :=
  PrescribedShapes p c ∧
  (∀ s < p.steps, ∀ q < detailsPerStep p, ∀ m, c[s * detailsPerStep p + q]? = some m → detail s m) ∧
  ∀ m, c[p.steps * detailsPerStep p]? = some m → approximation m

/-- Number of values of the approximation of a channel. -/
def approximationSize (p : Params) : ℕ := (p.shape.map fun n => paddedSide p n / 2 ^ p.steps).prod

end WB.Spec
