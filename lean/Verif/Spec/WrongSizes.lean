import Verif.Spec.Signal

/-!
Vocabulary for the statements about subbands of sizes other than the prescribed ones.
-/

namespace WB.Spec

open WB

variable {α : Type}

/-- The matrix is no larger than the shape. -/
def Within : List ℕ → Mat α → Prop
  | [n], m => m.rows ≤ n ∧ m.cols ≤ 1
  | [w, h], m => m.rows ≤ h ∧ m.cols ≤ w
  | _, _ => False

/-- No subband of the channel is larger than prescribed. -/
def NoneLarger (p : Params) (c : List (Mat α)) : Prop :=
  (∀ s < p.steps, ∀ j < detailsPerStep p, ∀ m, c[s * detailsPerStep p + j]? = some m →
    Within (p.shape.map (fun n => paddedSide p n / 2 ^ (s + 1))) m) ∧
  (∀ m, c[p.steps * detailsPerStep p]? = some m → Within (p.shape.map (fun n => paddedSide p n / 2 ^ p.steps)) m)

/-- The subbands that a composition to scale `scale` needs, the details of the steps from `scale` on and the
approximation, have the prescribed sizes. -/
def NeededComplete (p : Params) (scale : ℕ) (c : List (Mat α)) : Prop :=
  (∀ s, scale ≤ s → s < p.steps → ∀ j < detailsPerStep p, ∀ m, c[s * detailsPerStep p + j]? = some m →
    HasShape (p.shape.map (fun n => paddedSide p n / 2 ^ (s + 1))) m) ∧
  (∀ m, c[p.steps * detailsPerStep p]? = some m → HasShape (p.shape.map (fun n => paddedSide p n / 2 ^ p.steps)) m)

/-- 1D: the needed subbands have a column, the approximation is long enough for the requested length and every detail is at least
as long as the partial result it is combined with. -/
def LongEnough (p : Params) (scale len : ℕ) (c : List (Mat α)) : Prop :=
  ∃ a, c[p.steps]? = some a ∧ 1 ≤ a.cols ∧ len ≤ a.rows * 2 ^ (p.steps - scale) ∧
    ∀ s, scale ≤ s → s < p.steps → ∃ d, c[s]? = some d ∧ 1 ≤ d.cols ∧ a.rows * 2 ^ (p.steps - 1 - s) ≤ d.rows

end WB.Spec
