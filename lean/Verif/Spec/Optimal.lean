import Verif.Spec.Metrics
import Mathlib.Algebra.Order.Floor.Semiring
import Mathlib.Algebra.Order.Archimedean.Real.Basic

/-! Vocabulary for statements about best approximations. -/

namespace WB.Spec

open Finset

/-- Number of entries that are not zero. -/
noncomputable def nonzeros (m : Mat ℝ) : ℕ := by
  classical exact ((range m.rows ×ˢ range m.cols).filter fun q => m.get q.1 q.2 ≠ 0).card

/-- Price of the details of a channel: the square of the threshold of the step for every coefficient that is not zero. -/
noncomputable def price (p : Params) (threshold : ℕ → ℝ) (c : List (Mat ℝ)) : ℝ :=
  ∑ s ∈ range p.steps, ∑ q ∈ range (detailsPerStep p), threshold s ^ 2 * nonzeros (c.getD (s * detailsPerStep p + q) default)

/-- How many of `n` coefficients the simple denoiser keeps. -/
noncomputable def keptCount (level : ℝ) (n : ℕ) : ℕ := n - min ⌊(n : ℝ) * level⌋₊ (n - 1)

end WB.Spec
