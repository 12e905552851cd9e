import Verif.Spec.Signal

/-!
Vocabulary for mirrored signals.
-/

namespace WB.Spec

variable {α : Type} [Inhabited α]

/-- The matrix with its rows in reverse order (`v`) and with its columns in reverse order (`h`). -/
def mirror (v h : Bool) (m : Mat α) : Mat α :=
  Mat.ofFn m.rows m.cols fun i j => m.get (if v then m.rows - 1 - i else i) (if h then m.cols - 1 - j else j)

/-- The matrix itself, or the matrix with the opposite sign. -/
def signed [Neg α] (b : Bool) (m : Mat α) : Mat α := Mat.ofFn m.rows m.cols fun i j => if b then -m.get i j else m.get i j

/-- Whether detail `q` of a step changes its sign when the signal is mirrored: it does if the detail is a difference in a mirrored direction. In one dimension the only
detail is a difference of rows. In two, the first is one of rows, the second one of columns and the third one of both. -/
def turns (p : Params) (v h : Bool) (q : ℕ) : Bool :=
  if p.shape.length = 1 then v else if q = 0 then v else if q = 1 then h else v != h

/-- The same for a vector: in reverse order (`v`), with the opposite sign (`b`). -/
def mirrorList [Neg α] (b v : Bool) (l : List α) : List α := (if v then l.reverse else l).map fun x => if b then -x else x

/-- A denoiser that treats all places alike and both signs alike: on a mirrored or negated subband it does the same, mirrored or negated. -/
def IgnoresMirrors [Neg α] (den : Denoiser α) : Prop :=
  (∀ b v l s, den.d1 (mirrorList b v l) s = mirrorList b v (den.d1 l s)) ∧
    ∀ b v h m s, den.d2 (signed b (mirror v h m)) s = signed b (mirror v h (den.d2 m s))

/-- In the mirrored directions, what is padded at level `s` is the same on both sides: the difference between the padded side and the side, both divided by `2^s`, is even. -/
def Centred (p : Params) (s : ℕ) (v h : Bool) : Prop :=
  match p.shape with
  | [n] => v = true → 2 ∣ paddedSide p n / 2 ^ s - n / 2 ^ s
  | [x, y] => (v = true → 2 ∣ paddedSide p y / 2 ^ s - y / 2 ^ s) ∧ (h = true → 2 ∣ paddedSide p x / 2 ^ s - x / 2 ^ s)
  | _ => True

end WB.Spec
