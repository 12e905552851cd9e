import Verif.Spec.FloatMetrics
import Verif.Spec.Local
import Verif.Model.FloatDenoise

/-!
Vocabulary for statements about signals with the opposite sign.
-/

namespace WB.Spec

/-- One is the other with the sign bit flipped; zeros of either sign count as opposites of each other, and so do NaNs. -/
def Opposite (x y : F32) : Prop :=
  (y.toNat % 2 ^ 31 = x.toNat % 2 ^ 31 ∧ y.toNat / 2 ^ 31 ≠ x.toNat / 2 ^ 31) ∨ (isZeroPattern x ∧ isZeroPattern y) ∨ (isNaN x ∧ isNaN y)

/-- Sums, products and quotients do not prefer a sign. True of all rounding modes of IEEE 754 except those towards one of the infinities. -/
structure SignBlind (o : FloatOps) : Prop where
  add : ∀ x x' y y', Opposite x x' → Opposite y y' → Opposite (o.add x y) (o.add x' y')
  mul : ∀ x x' c, Opposite x x' → Opposite (o.mul x c) (o.mul x' c) ∧ Opposite (o.mul c x) (o.mul c x')
  div : ∀ two s x x', Opposite x x' → Opposite (o.div two s x) (o.div two s x')

/-- Two vectors of the same length, related in every place. -/
def RelatedLists {α : Type} (R : α → α → Prop) (v w : List α) : Prop := List.Forall₂ R v w

/-- Two matrices of the same size, related in every place. -/
def RelatedMats {α : Type} [Inhabited α] (R : α → α → Prop) (m m' : Mat α) : Prop :=
  m'.rows = m.rows ∧ m'.cols = m.cols ∧ ∀ i < m.rows, ∀ j < m.cols, R (m.get i j) (m'.get i j)

/-- Two sets of channels with the same numbers and sizes of subbands, related in every place. -/
def RelatedDecs {α : Type} [Inhabited α] (R : α → α → Prop) (d d' : Decs α) : Prop := List.Forall₂ (List.Forall₂ (RelatedMats R)) d d'

/-- The relation survives the operations of the transform. -/
structure Survives {α : Type} [Zero α] [Add α] [Mul α] [Inhabited α] (k : Kit α) (R : α → α → Prop) : Prop where
  zero : R 0 0
  fill : R default default
  add : ∀ x x' y y', R x x' → R y y' → R (x + y) (x' + y')
  mul : ∀ x x' c, R x x' → R (x * c) (x' * c) ∧ R (c * x) (c * x')
  div : ∀ two s x x', R x x' → R (k.divFactor two s x) (k.divFactor two s x')

/-- The denoiser turns related details into related details. -/
def DenoiserKeeps {α : Type} [Inhabited α] (R : α → α → Prop) (den : Denoiser α) : Prop :=
  (∀ v v' s, RelatedLists R v v' → RelatedLists R (den.d1 v s) (den.d1 v' s)) ∧
    ∀ m m' s, RelatedMats R m m' → RelatedMats R (den.d2 m s) (den.d2 m' s)

end WB.Spec
