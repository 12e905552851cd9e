import Verif.Spec.Signal
import Mathlib.Data.Real.Basic

/-!
Vocabulary for distance, energies and value ranges.
-/

namespace WB.Spec

open Finset

/-- Two matrices have the same size. -/
def SameSize (x y : Mat ℝ) : Prop := x.rows = y.rows ∧ x.cols = y.cols

/-- Two buffers of equal form: same shape and channel count, and subband for subband the same sizes. -/
def SameForm (a b : Buffer ℝ) : Prop :=
  a.params.shape = b.params.shape ∧ a.params.signalNumber = b.params.signalNumber ∧
  List.Forall₂ (List.Forall₂ SameSize) a.decs b.decs

/-- Sum of the squared differences of the entries. -/
noncomputable def sqDist (x y : Mat ℝ) : ℝ := ∑ i ∈ range x.rows, ∑ j ∈ range x.cols, (x.get i j - y.get i j) ^ 2

/-- The same over all subbands of all channels. -/
noncomputable def sqDistAll (a b : List (List (Mat ℝ))) : ℝ :=
  (List.zipWith (fun c d => (List.zipWith sqDist c d).sum) a b).sum

/-- At least one sample, and a number of samples that the counters of the code can hold. -/
def CountableSamples (p : Params) : Prop :=
  0 < p.signalNumber ∧ (∀ n ∈ p.shape, 0 < n) ∧ p.shape.prod < 2 ^ 31 ∧ p.signalNumber * p.shape.prod < 2 ^ 64

/-- All entries are zero. -/
def AllZero (m : Mat ℝ) : Prop := ∀ i < m.rows, ∀ j < m.cols, m.get i j = 0

/-- All entries lie between `lo` and `hi`. -/
def Between (lo hi : ℝ) (m : Mat ℝ) : Prop := ∀ i < m.rows, ∀ j < m.cols, lo ≤ m.get i j ∧ m.get i j ≤ hi

end WB.Spec
