import Verif.Spec.Linear
import Verif.Spec.Signal
import Verif.Spec.Metrics
import Mathlib.Algebra.BigOperators.Intervals

/-! Vocabulary for the energy of previews. -/

namespace WB.Spec

open Finset

/-- Energy of the subbands that a composition at scale `s` reads: the last one and the details of the steps from `s` on. -/
noncomputable def contents (p : Params) (s : ℕ) (c : List (Mat ℝ)) : ℝ :=
  energy (c.getD (p.steps * detailsPerStep p) default) +
    ∑ t ∈ Ico s p.steps, ∑ q ∈ range (detailsPerStep p), energy (c.getD (t * detailsPerStep p + q) default)

/-- Mean of the squares of the samples. -/
noncomputable def meanSquare (m : Mat ℝ) : ℝ := energy m / (m.rows * m.cols : ℕ)

end WB.Spec
