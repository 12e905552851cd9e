import Verif.Spec.SfParse

/-!
Vocabulary for statements about parsing bytes that no `Serialize` wrote.
-/

namespace WB.Spec

/-- The libraries are safe in themselves: asking for memory may fail but is never undefined, and Blaze's readers for the
encodings that this code never writes are never undefined; those for bytes leave a rest of their input. Nothing is said
about the two codecs. -/
structure SafeLibrary (e : Ext) : Prop where
  alloc : ∀ r c, e.alloc r c ≠ .ub
  mat : ∀ t r c n s, e.otherMat t r c n s ≠ .ub
  bytes : ∀ t k n s, e.otherBytes t k n s ≠ .ub
  bytesRest : ∀ t k n s x w, e.otherBytes t k n s = .ok (x, w) → w <:+ s
  channel : ∀ t k n s, e.otherChannel t k n s ≠ .ub
  channels : ∀ t k n s, e.otherDecs t k n s ≠ .ub

/-- The numbers of the parameters fit the fields of the format. They need not make sense together. -/
structure FitsFields (p : Params) : Prop where
  dimension : p.shape.length < 2 ^ 64
  sides : ∀ n ∈ p.shape, n < 2 ^ 64
  channels : p.signalNumber < 2 ^ 64
  steps : p.steps < 2 ^ 64
  wavelet : p.wtype < 2 ^ 32

/-- The head of a compressed subband: how many values are stored, and the sides of the subband. -/
def recordHead (stored rows cols : ℕ) : Bytes := littleEndian 8 stored ++ littleEndian 8 rows ++ littleEndian 8 cols

/-- The two codecs, given the streams `is` and `vs` and told to expect `stored` numbers, are undefined themselves or give
numbers that do not fit: fewer values than positions, or a position outside a subband of `rows` times `cols`. -/
def BadRecord (e : Ext) (stored rows cols : ℕ) (is vs : Bytes) : Prop :=
  e.svbDec is stored = .ub ∨ e.fpzDec vs stored = .ub ∨
  ∃ positions values, e.svbDec is stored = .ok positions ∧ e.fpzDec vs stored = .ok values ∧
    (values.length < positions.length ∨ ∃ i ∈ positions, rows * cols ≤ i)

end WB.Spec
