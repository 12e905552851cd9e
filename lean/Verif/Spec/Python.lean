import Verif.Model.Python
import Verif.Spec.Signal

/-! Vocabulary for statements about NumPy arrays and slices. -/

namespace WB.Spec

open WB.Py

/-- The four bytes from position `pos` on are those of the float `x`, least significant first. -/
def HasFloat (mem : Bytes) (pos : ℤ) (x : F32) : Prop :=
  ∃ (n : ℕ) (b0 b1 b2 b3 : UInt8), pos = n ∧ mem[n]? = some b0 ∧ mem[n + 1]? = some b1 ∧ mem[n + 2]? = some b2 ∧ mem[n + 3]? = some b3 ∧
    x.toNat = b0.toNat + 256 * b1.toNat + 65536 * b2.toNat + 16777216 * b3.toNat

/-- NumPy's rule: where the element with the given index is. -/
def elementPos (a : NpArray) (index : List ℕ) : ℤ := a.start + (List.zipWith (fun (s : ℤ) (i : ℕ) => s * i) a.strides index).sum

/-- The element of the array with the given index is `x`. -/
def HasElement (a : NpArray) (index : List ℕ) (x : F32) : Prop := HasFloat a.mem (elementPos a index) x

/-- The array is, element by element, the list of matrices: index = (channel, row, column). -/
def Represents (a : NpArray) (ms : List (Mat F32)) : Prop :=
  ∃ h w, a.shape = [ms.length, h, w] ∧ ∀ (ch : ℕ) (m : Mat F32), ms[ch]? = some m → m.rows = h ∧ m.cols = w ∧
    ∀ i < h, ∀ j < w, HasElement a [ch, i, j] (m.get i j)

/-- The array is, element by element, the matrix. -/
def RepresentsMat (a : NpArray) (m : Mat F32) : Prop :=
  a.shape = [m.rows, m.cols] ∧ ∀ i < m.rows, ∀ j < m.cols, HasElement a [i, j] (m.get i j)

/-- An array of `c` × `h` × `w` floats one after the other. -/
def Contiguous3 (a : NpArray) (c h w : ℕ) : Prop :=
  a.shape = [c, h, w] ∧ a.strides = [4 * (h * w : ℕ), 4 * (w : ℕ), 4] ∧ 0 ≤ a.start ∧ a.start + 4 * (c * (h * w) : ℕ) ≤ a.mem.length

/-- Python's rule for the slice `start:stop` of a sequence of `n` elements (step 1): bounds below 0 count from the end. -/
def InSlice (n : ℕ) (start stop : Option ℤ) (i : ℕ) : Prop :=
  i < n ∧ (∀ x, start = some x → (if x < 0 then x + n else x) ≤ i) ∧ ∀ x, stop = some x → (i : ℤ) < if x < 0 then x + n else x

end WB.Spec
