import Verif.Model.Codec
import Mathlib.Analysis.Real.Sqrt
import Mathlib.Algebra.BigOperators.Group.Finset.Basic
import Mathlib.Data.Finset.Prod

/-!
What C110 says about two pictures.
-/

namespace WB.Spec

open Finset

/-- The pixel of `b` is at most `d` below and less than `d` above the pixel of `a`. -/
def NearPixel (a b : CImg) (d x y c : ℕ) : Prop :=
  ∃ k k' : UInt8, a.at x y c = .ok k ∧ b.at x y c = .ok k' ∧ k.toNat ≤ k'.toNat + d ∧ k'.toNat < k.toNat + d

open Classical in
/-- How many pixels of channel `c` are not near. -/
noncomputable def farPixels (a b : CImg) (d c : ℕ) : ℕ :=
  ((range a.width ×ˢ range a.height).filter fun q => ¬ NearPixel a b d q.1 q.2 c).card

/-- The difference of two pixels; a pixel that cannot be read counts as far off. -/
def pixelGap : Outcome UInt8 → Outcome UInt8 → ℝ
  | .ok k, .ok k' => (k'.toNat : ℝ) - k.toNat
  | _, _ => 1000

/-- The sum of the squares of the pixel differences of channel `c`. -/
noncomputable def pixelSquares (a b : CImg) (c : ℕ) : ℝ :=
  ∑ q ∈ range a.width ×ˢ range a.height, pixelGap (a.at q.1 q.2 c) (b.at q.1 q.2 c) ^ 2

end WB.Spec
