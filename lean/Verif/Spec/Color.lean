import Verif.Model.Mat
import Mathlib.Data.Real.Basic

/-! Vocabulary for statements about colours and colour images. -/

namespace WB

/-- A number in the unit interval. -/
def Unit01 (x : ℝ) : Prop := 0 ≤ x ∧ x ≤ 1

/-- A colour whose components are in the unit interval. -/
def UnitColour (c : ℝ × ℝ × ℝ) : Prop := Unit01 c.1 ∧ Unit01 c.2.1 ∧ Unit01 c.2.2

/-- The largest change of a component is at most `e`. -/
def Within (e : ℝ) (c d : ℝ × ℝ × ℝ) : Prop := |c.1 - d.1| ≤ e ∧ |c.2.1 - d.2.1| ≤ e ∧ |c.2.2 - d.2.2| ≤ e

/-- Largest and smallest component. -/
noncomputable def brightest (c : ℝ × ℝ × ℝ) : ℝ := max c.1 (max c.2.1 c.2.2)
noncomputable def darkest (c : ℝ × ℝ × ℝ) : ℝ := min c.1 (min c.2.1 c.2.2)

/-- Every component that is within 0.0001 of the largest one equals it. -/
def ClearMaximum (c : ℝ × ℝ × ℝ) : Prop :=
  ∀ x ∈ [c.1, c.2.1, c.2.2], brightest c - x < 1 / 10000 → x = brightest c

/-- Three channels of the same size `rows × cols` from channel `sc` on. -/
def ThreeChannels (img : List (Mat ℝ)) (sc rows cols : ℕ) : Prop :=
  ∀ k < 3, ∃ m, img[sc + k]? = some m ∧ m.rows = rows ∧ m.cols = cols

/-- The colour of a pixel. -/
noncomputable def pixel (img : List (Mat ℝ)) (sc y x : ℕ) : ℝ × ℝ × ℝ :=
  ((img.getD sc default).get y x, (img.getD (sc + 1) default).get y x, (img.getD (sc + 2) default).get y x)

end WB
