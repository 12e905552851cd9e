import Verif.Model.Mat

/-!
Model of `sources/padding.cc` and of `AddPadding`/`CropPadding` in `wavelet_buffer/wavelet_utils.h`.
-/

namespace WB

variable {α : Type}

/-- `PaddingLocation` (wavelet_buffer/padding.h). -/
inductive PadLoc where
  | right
  | both
  deriving DecidableEq, Repr

/-- `PaddingAlgorithm::Crop`, sources/padding.cc:11-34.
The `assert` at 13-15 is compiled out. If the target is larger than the source the unsigned differences at 26-27 wrap
(or stay 0 for `kRight`) and `submatrix` throws; the wrap itself is not represented. -/
def crop [Inhabited α] (rows cols : ℕ) (loc : PadLoc) (src : Mat α) : Outcome (Mat α) :=
  if rows * cols = 0 then .ok src
  else if src.rows < rows ∨ src.cols < cols then .throw
  else
    let r0 := if loc = .both then (src.rows - rows) / 2 else 0
    let c0 := if loc = .both then (src.cols - cols) / 2 else 0
    .ok (Mat.ofFn rows cols (fun i j => src.get (r0 + i) (c0 + j)))

/-- `ZeroPaddingAlgorithm::Extend`, sources/padding.cc:36-61.
A source that is larger than the target makes `submatrix` at 58 throw. -/
def zeroExtend [Inhabited α] (zero : α) (rows cols : ℕ) (loc : PadLoc) (src : Mat α) : Outcome (Mat α) :=
  if rows * cols = 0 then .ok src
  else if rows < src.rows ∨ cols < src.cols then .throw
  else do
    let r0 := if loc = .both then (rows - src.rows) / 2 else 0
    let c0 := if loc = .both then (cols - src.cols) / 2 else 0
    let m ← (Raw.new rows cols).fill 0 0 rows cols (fun _ _ => zero)
    let m ← m.fill r0 c0 src.rows src.cols src.get
    m.done

/-- `ZeroDerivativePaddingAlgorithm::Extend`, sources/padding.cc:63-160.
* source larger than target: the differences at 75-76 wrap and `submatrix` at 96 throws;
* source without columns: `submatrix` at 100 throws; source with columns but without rows: `source.rows() - 1` at 104
  wraps past blaze's range check and `source(0,0)` at 110 reads out of range;
* the rectangles are written one after the other in the order of the code, later ones overwrite earlier ones. -/
def extend [Inhabited α] (rows cols : ℕ) (loc : PadLoc) (src : Mat α) : Outcome (Mat α) :=
  if rows * cols = 0 then .ok src
  else if rows < src.rows ∨ cols < src.cols then .throw
  else if src.cols = 0 then .throw
  else if src.rows = 0 then .ub
  else do
    let dc := cols - src.cols
    let dr := rows - src.rows
    let left := if loc = .right then 0 else dc / 2
    let top := if loc = .right then 0 else dr / 2
    let right := if loc = .right then dc else dc / 2 + dc % 2
    let bottom := if loc = .right then dr else dr / 2 + dr % 2
    -- 95-97 original part
    let m ← (Raw.new rows cols).fill top left src.rows src.cols src.get
    -- 117-121 right part
    let m ← m.fillIf (right > 0) top (left + src.cols) src.rows right (fun i _ => src.get i (src.cols - 1))
    -- 123-126 bottom part
    let m ← m.fillIf (bottom > 0) (top + src.rows) left bottom src.cols (fun _ j => src.get (src.rows - 1) j)
    -- 128-131 left part
    let m ← m.fillIf (left > 0) top 0 src.rows left (fun i _ => src.get i 0)
    -- 133-136 top part
    let m ← m.fillIf (top > 0) 0 left top src.cols (fun _ j => src.get 0 j)
    -- 139-143 right bottom corner
    let m ← m.fillIf (bottom > 0 ∧ right > 0) (top + src.rows) (left + src.cols) bottom right
      (fun _ _ => src.get (src.rows - 1) (src.cols - 1))
    -- 145-148 left bottom corner
    let m ← m.fillIf (bottom > 0 ∧ left > 0) (top + src.rows) 0 bottom left
      (fun _ _ => src.get (src.rows - 1) 0)
    -- 150-152 left top corner
    let m ← m.fillIf (top > 0 ∧ left > 0) 0 0 top left (fun _ _ => src.get 0 0)
    -- 154-157 right top corner
    let m ← m.fillIf (top > 0 ∧ right > 0) 0 (left + src.cols) top right
      (fun _ _ => src.get 0 (src.cols - 1))
    m.done

/-- Rows of the matrix that holds a signal of the given shape (wavelet_buffer/wavelet_utils.h:94-102, 116-124).
The shape has one or two entries. -/
def matRows (shape : List ℕ) : ℕ :=
  match shape with
  | _ :: h :: _ => h
  | [n] => n
  | [] => 0

/-- Columns of the matrix that holds a signal of the given shape (wavelet_buffer/wavelet_utils.h:94-102, 116-124). -/
def matCols (shape : List ℕ) : ℕ :=
  match shape with
  | w :: _ :: _ => w
  | _ => 1

/-- `CropPadding`, wavelet_buffer/wavelet_utils.h:92-106 (`Padding` is the zero-derivative algorithm with location
`kBoth`, the default of its constructor). -/
def cropPadding [Inhabited α] (m : Mat α) (shape : List ℕ) : Outcome (Mat α) :=
  crop (matRows shape) (matCols shape) .both m

/-- `AddPadding`, wavelet_buffer/wavelet_utils.h:114-129. -/
def addPadding [Inhabited α] (m : Mat α) (padded : List ℕ) : Outcome (Mat α) :=
  extend (matRows padded) (matCols padded) .both m

end WB
