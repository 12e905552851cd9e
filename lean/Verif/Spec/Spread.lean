import Verif.Spec.Local
import Verif.Spec.FloatMetrics

/-!
Vocabulary for statements about values that infect everything that is computed from them, such as NaN.
-/

namespace WB.Spec

variable {α : Type} [Add α] [Mul α]

/-- A sum or product with a bad operand is bad, and so is a bad value divided by the gain of a preview. -/
structure Contagious (k : Kit α) (bad : α → Prop) : Prop where
  add : ∀ x y, bad x ∨ bad y → bad (x + y)
  mul : ∀ x y, bad x ∨ bad y → bad (x * y)
  div : ∀ two s x, bad x → bad (k.divFactor two s x)

/-- Infinity or NaN. -/
def NotFinite (x : F32) : Prop := ¬ finiteBits x

/-- What IEEE 754 says about infinities and NaN: a sum, product or quotient (by a finite number) with such an operand is one of them again. (The product of
infinity and zero is NaN, the sum of two infinities of opposite signs is NaN.) -/
structure SpreadsTrouble (o : FloatOps) : Prop where
  add : ∀ x y, NotFinite x ∨ NotFinite y → NotFinite (o.add x y)
  mul : ∀ x y, NotFinite x ∨ NotFinite y → NotFinite (o.mul x y)
  div : ∀ two s x, NotFinite x → NotFinite (o.div two s x)

/-- Place in the middle of a side of length `big` of what is at `i` in a side of length `small`. -/
def centred (big small i : ℕ) : ℕ := i + (big - small) / 2

/-- Whatever is bad in the signals is bad at its place in the previews of scale `s` (which are divided by `2^s` in each direction, all centred in the padded sides),
unless the crop of the preview cuts it off. -/
def ShowsThrough {α : Type} [Inhabited α] (bad : α → Prop) (p : Params) (s : ℕ) (data out : List (Mat α)) : Prop :=
  out.length = data.length ∧ ∀ (n : ℕ) (x y : Mat α), data[n]? = some x → out[n]? = some y → ∀ i < x.rows, ∀ j < x.cols, bad (x.get i j) →
    ∀ i' < y.rows, ∀ j' < y.cols, centred (levelSides p s).1 y.rows i' = centred (levelSides p 0).1 x.rows i / 2 ^ s →
      centred (levelSides p s).2 y.cols j' = centred (levelSides p 0).2 x.cols j / 2 ^ s → bad (y.get i' j')

end WB.Spec
