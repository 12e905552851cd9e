import Verif.Model.Mat
import Mathlib.Algebra.BigOperators.Group.Finset.Basic
import Mathlib.Algebra.Ring.Defs

/-!
Vocabulary for statements about values: linear combinations, energy, constants.
-/

namespace WB.Spec

open Finset

variable {R : Type} [CommRing R] [Inhabited R]

/-- `z = a x + b y`, entry by entry, all of one size. -/
def Comb (a b : R) (x y z : Mat R) : Prop :=
  x.rows = z.rows ∧ x.cols = z.cols ∧ y.rows = z.rows ∧ y.cols = z.cols ∧
  ∀ i < z.rows, ∀ j < z.cols, z.get i j = a * x.get i j + b * y.get i j

/-- The same for lists of matrices. -/
def CombAll (a b : R) (xs ys zs : List (Mat R)) : Prop :=
  xs.length = zs.length ∧ ys.length = zs.length ∧
  ∀ (i : ℕ) (x y z : Mat R), xs[i]? = some x → ys[i]? = some y → zs[i]? = some z → Comb a b x y z

/-- The same for lists of channels. -/
def CombChannels (a b : R) (xs ys zs : List (List (Mat R))) : Prop :=
  xs.length = zs.length ∧ ys.length = zs.length ∧
  ∀ (i : ℕ) (x y z : List (Mat R)), xs[i]? = some x → ys[i]? = some y → zs[i]? = some z → CombAll a b x y z

/-- Sum of the squares of all entries. -/
def energy (m : Mat R) : R := ∑ i ∈ range m.rows, ∑ j ∈ range m.cols, m.get i j * m.get i j

/-- All entries have the same value. -/
def ConstMat (c : R) (m : Mat R) : Prop := ∀ i < m.rows, ∀ j < m.cols, m.get i j = c

end WB.Spec
