import Verif.Spec.Signal
import Mathlib.MeasureTheory.Integral.Bochner.Basic

/-!
Vocabulary for random signals.
-/

namespace WB.Spec

/-- Row `i` and column `j` exist in matrix `t` of the list. -/
def Inside (l : List (Mat ℝ)) (t i j : ℕ) : Prop := ∃ m, l[t]? = some m ∧ i < m.rows ∧ j < m.cols

/-- The value there. -/
noncomputable def valueAt (l : List (Mat ℝ)) (t i j : ℕ) : ℝ := (l.getD t default).get i j

/-- White noise of variance `v` with mean square taken over `μ`: different values are uncorrelated and all have the mean square `v`. -/
def White {Ω : Type} [MeasurableSpace Ω] (μ : MeasureTheory.Measure Ω) (v : ℝ) (x : Ω → List (Mat ℝ)) : Prop :=
  ∀ t i j t' i' j', (∀ ω, Inside (x ω) t i j) → (∀ ω, Inside (x ω) t' i' j') →
    MeasureTheory.Integrable (fun ω => valueAt (x ω) t i j * valueAt (x ω) t' i' j') μ ∧
    ∫ ω, valueAt (x ω) t i j * valueAt (x ω) t' i' j' ∂μ = if t = t' ∧ i = i' ∧ j = j' then v else 0

end WB.Spec
