import Verif.Model.Serialize
import Verif.Spec.Signal

/-!
Vocabulary for statements about serialisation.
-/

namespace WB.Spec

/-- The sizes of a buffer fit the 64-bit fields of the format and its wavelet is a value of the enum. Every buffer that
exists on a 64-bit machine does. -/
def FitsFormat (b : Buffer F32) : Prop :=
  (∀ n ∈ b.params.shape, n < 2 ^ 64) ∧ b.params.signalNumber < 2 ^ 64 ∧ b.params.wtype < 8 ∧
  ∀ c ∈ b.decs, ∀ m ∈ c, m.rows < 2 ^ 64 ∧ m.cols < 2 ^ 64

/-- Memory for containers of up to `M` elements can be allocated. -/
def Room (e : Ext) (M : ℕ) : Prop := ∀ r c, r * c ≤ M → e.alloc r c = .ok ()

/-- The subbands and the table of subbands have at most `M` elements. -/
def FitsMemory (b : Buffer F32) (M : ℕ) : Prop :=
  b.params.signalNumber * subbandCount b.params ≤ M ∧ ∀ c ∈ b.decs, ∀ m ∈ c, m.rows * m.cols ≤ M

/-- What the code relies on from the two codecs: the integer codec is lossless, the float codec replaces every value by
`trunc precision` of it and 32 bits of precision lose nothing. -/
structure CodecsWork (e : Ext) (trunc : ℕ → F32 → F32) : Prop where
  integers : ∀ xs : List ℕ, (∀ x ∈ xs, x < 2 ^ 32) → xs.length < 2 ^ 31 →
    (e.svbEnc xs).length < 2 ^ 64 ∧ e.svbDec (e.svbEnc xs) xs.length = .ok xs
  floats : ∀ prec vs, 2 ≤ prec → prec ≤ 32 → vs.length < 2 ^ 31 →
    ∃ bs, e.fpzEnc prec vs = .ok bs ∧ bs.length < 2 ^ 64 ∧ e.fpzDec bs vs.length = .ok (vs.map (trunc prec))
  lossless : ∀ x, trunc 32 x = x

/-- Every subband holds at least one and fewer than 2^31 values. -/
def Compressible (b : Buffer F32) : Prop := ∀ c ∈ b.decs, ∀ m ∈ c, 0 < m.rows * m.cols ∧ m.rows * m.cols < 2 ^ 31

/-- The two bit patterns of a floating point zero. -/
def isZeroPattern (x : F32) : Bool := x == 0x00000000#32 || x == 0x80000000#32

/-- `m'` is `m` with zeros (of either sign) replaced by `+0` and all other values by `f` of them. -/
def MappedNonzeros (f : F32 → F32) (m m' : Mat F32) : Prop :=
  m'.rows = m.rows ∧ m'.cols = m.cols ∧
  ∀ i < m.rows, ∀ j < m.cols, m'.get i j = if isZeroPattern (m.get i j) then 0 else f (m.get i j)

/-! ### The version-2 uncompressed format, written out -/

/-- `n` bytes of `x`, least significant first. -/
def littleEndian : ℕ → ℕ → Bytes
  | 0, _ => []
  | n + 1, x => UInt8.ofNat x :: littleEndian n (x / 256)

/-- Archive of a container of `xs.length` elements of `size` bytes, encoded one after the other. -/
def archiveVector {β : Type} (size : UInt8) (enc : β → Bytes) (xs : List β) : Bytes :=
  [1, 0, 0, size] ++ littleEndian 8 xs.length ++ littleEndian 8 xs.length ++ (xs.map enc).flatten

/-- Archive of a matrix of 32-bit floats, row by row. -/
def archiveMatrix (m : Mat F32) : Bytes :=
  [1, 1, 3, 4] ++ littleEndian 8 m.rows ++ littleEndian 8 m.cols ++ littleEndian 8 (m.rows * m.cols) ++
    (m.data.map (fun x => littleEndian 4 x.toNat)).flatten

/-- Parameters: dimension, sides, channels, steps, wavelet. -/
def encodeParams (p : Params) : Bytes :=
  littleEndian 8 p.shape.length ++ (p.shape.map (littleEndian 8)).flatten ++ littleEndian 8 p.signalNumber ++
    littleEndian 8 p.steps ++ littleEndian 4 p.wtype

/-- A buffer in the version-2 format without compression. -/
def encodeV2 (b : Buffer F32) : Bytes :=
  [2] ++ encodeParams b.params ++ [0] ++ archiveVector 24 (archiveVector 40 archiveMatrix) b.decs

end WB.Spec
