import Verif.Spec.WrongSizes

/-!
Vocabulary for saying how a composition of subbands of arbitrary sizes ends.
-/

namespace WB.Spec

open WB

variable {α : Type}

/-- Rows of subband `j` of a channel. -/
def rowsOf (c : List (Mat α)) (j : ℕ) : ℕ := ((c[j]?).map Mat.rows).getD 0

/-- Columns of subband `j` of a channel. -/
def colsOf (c : List (Mat α)) (j : ℕ) : ℕ := ((c[j]?).map Mat.cols).getD 0

/-- Signals, step `i`: there is no first column to take, of the details or, in the first step that is undone, of the approximation. -/
def VectorRefuses (p : Params) (c : List (Mat α)) (i : ℕ) : Prop :=
  colsOf c i = 0 ∨ (i + 1 = p.steps ∧ colsOf c p.steps = 0)

/-- Signals, step `i`: there is something to undo, and the details are shorter than what they are combined with, or this is
shorter than the filter allows. -/
def VectorStrays (p : Params) (c : List (Mat α)) (i : ℕ) : Prop :=
  0 < rowsOf c p.steps * 2 ^ (p.steps - 1 - i) ∧
    (rowsOf c i < rowsOf c p.steps * 2 ^ (p.steps - 1 - i) ∨ rowsOf c p.steps * 2 ^ (p.steps - 1 - i) + 1 < p.wtype)

/-- Pictures: side of the result of step `i`, for a side of length `n`. -/
def sideAt (p : Params) (n i : ℕ) : ℕ := paddedSide p n / 2 ^ i

/-- Pictures of width `w` and height `h`: where step `i` puts its four parts, as first row, first column, number of rows, number of
columns. The other parts are placed next to the first one, which is the approximation or the result of the step before. -/
def blocks (p : Params) (w h : ℕ) (c : List (Mat α)) (i : ℕ) : List (ℕ × ℕ × ℕ × ℕ) :=
  let rows := if i + 1 = p.steps then rowsOf c (p.steps * 3) else sideAt p h (i + 1)
  let cols := if i + 1 = p.steps then colsOf c (p.steps * 3) else sideAt p w (i + 1)
  [(0, 0, rows, cols), (rows, 0, rowsOf c (i * 3), colsOf c (i * 3)), (0, cols, rowsOf c (i * 3 + 1), colsOf c (i * 3 + 1)),
    (rows, cols, rowsOf c (i * 3 + 2), colsOf c (i * 3 + 2))]

/-- Pictures, step `i`: a part does not lie inside the matrix of the step. -/
def PictureRefuses (p : Params) (w h : ℕ) (c : List (Mat α)) (i : ℕ) : Prop :=
  ∃ q ∈ blocks p w h c i, sideAt p h i < q.1 + q.2.2.1 ∨ sideAt p w i < q.2.1 + q.2.2.2

/-- Pictures, step `i`: some element of the matrix of the step lies in none of the four parts. -/
def PictureStrays (p : Params) (w h : ℕ) (c : List (Mat α)) (i : ℕ) : Prop :=
  ∃ y < sideAt p h i, ∃ x < sideAt p w i, ∀ q ∈ blocks p w h c i,
    ¬ (q.1 ≤ y ∧ y < q.1 + q.2.2.1 ∧ q.2.1 ≤ x ∧ x < q.2.1 + q.2.2.2)

/-- Step `i` cannot be undone and notices it. -/
def Refuses (p : Params) (c : List (Mat α)) (i : ℕ) : Prop :=
  match p.shape with
  | [_] => VectorRefuses p c i
  | [w, h] => PictureRefuses p w h c i
  | _ => False

/-- Undoing step `i` uses memory that it should not. -/
def Strays (p : Params) (c : List (Mat α)) (i : ℕ) : Prop :=
  match p.shape with
  | [_] => VectorStrays p c i
  | [w, h] => PictureStrays p w h c i
  | _ => False

/-- The steps are undone from the last one down to `scale`, channel after channel: nothing goes wrong before step `i` of channel
`n`. -/
def SmoothUntil (p : Params) (d : List (List (Mat α))) (scale n i : ℕ) : Prop :=
  ∀ n' i' c, d[n']? = some c → scale ≤ i' → i' < p.steps → n' < n ∨ (n' = n ∧ i < i') → ¬ Refuses p c i' ∧ ¬ Strays p c i'

/-- Nothing goes wrong in any step of any channel. -/
def Smooth (p : Params) (d : List (List (Mat α))) (scale : ℕ) : Prop :=
  ∀ c ∈ d, ∀ i, scale ≤ i → i < p.steps → ¬ Refuses p c i ∧ ¬ Strays p c i

/-- The result of the steps is smaller than the signal that is to be cut out of it. (A signal with an empty side is not cut out.) -/
def TooSmall (p : Params) (scale : ℕ) (c : List (Mat α)) : Prop :=
  match p.shape with
  | [n] => 0 < n / 2 ^ scale ∧
      (rowsOf c p.steps * 2 ^ (p.steps - scale) < n / 2 ^ scale ∨ (p.steps ≤ scale ∧ colsOf c p.steps = 0))
  | [w, h] => 0 < w / 2 ^ scale ∧ 0 < h / 2 ^ scale ∧ p.steps ≤ scale ∧
      (rowsOf c (p.steps * 3) < h / 2 ^ scale ∨ colsOf c (p.steps * 3) < w / 2 ^ scale)
  | _ => False

end WB.Spec
