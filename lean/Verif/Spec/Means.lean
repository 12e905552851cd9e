import Verif.Spec.Local
import Mathlib.Data.Real.Basic
import Mathlib.Algebra.BigOperators.Group.Finset.Basic

/-!
Vocabulary for statements about previews as averages.
-/

namespace WB.Spec

/-- The sample at `(i, j)` of the padded signal: the nearest sample of the signal, which is centred in the padded sides. -/
noncomputable def paddedSample (p : Params) (x : Mat ℝ) (i j : ℕ) : ℝ :=
  x.get (min (i - ((levelSides p 0).1 - x.rows) / 2) (x.rows - 1)) (min (j - ((levelSides p 0).2 - x.cols) / 2) (x.cols - 1))

/-- How many columns of the signal a column of the preview of scale `s` stands for: one in one dimension. -/
def blockCols (p : Params) (s : ℕ) : ℕ := if p.shape.length = 2 then 2 ^ s else 1

/-- Every value of the preview `y` of scale `s` is the mean of the `2^s` (in two dimensions: `2^s · 2^s`) samples of the padded signal `x` it stands for. The preview is
centred in the padded sides divided by `2^s`. -/
def BlockMeans (p : Params) (s : ℕ) (x y : Mat ℝ) : Prop :=
  ∀ i < y.rows, ∀ j < y.cols, y.get i j =
    (∑ a ∈ Finset.range (2 ^ s), ∑ b ∈ Finset.range (blockCols p s),
      paddedSample p x (2 ^ s * (i + ((levelSides p s).1 - y.rows) / 2) + a) (blockCols p s * (j + ((levelSides p s).2 - y.cols) / 2) + b)) /
    (2 ^ s * blockCols p s : ℕ)

end WB.Spec
