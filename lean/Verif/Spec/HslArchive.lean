import Verif.Spec.PictureArchive

/-!
What C113 says about two pictures.
-/

namespace WB.Spec

open Finset

/-- The pixel is near in all three channels. -/
def NearColour (a b : CImg) (d x y : ℕ) : Prop := ∀ c < 3, NearPixel a b d x y c

open Classical in
/-- How many pixels are not near in some channel. -/
noncomputable def farColours (a b : CImg) (d : ℕ) : ℕ :=
  ((range a.width ×ˢ range a.height).filter fun q => ¬ NearColour a b d q.1 q.2).card

end WB.Spec
