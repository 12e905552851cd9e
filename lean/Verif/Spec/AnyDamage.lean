import Verif.Spec.Damage

/-! Vocabulary for statements about any set of changed coefficients in an archive. -/

namespace WB.Spec

/-- The sides of all subbands, channel by channel. -/
def sidesOf {α : Type} (d : Decs α) : List (List (ℕ × ℕ)) := d.map fun c => c.map fun m => (m.rows, m.cols)

/-- There is a coefficient `(i, j)` in a subband `q` of a channel `n`. -/
def HasPlace {α : Type} (d : Decs α) (n q i j : ℕ) : Prop := ∃ c m, d[n]? = some c ∧ c[q]? = some m ∧ i < m.rows ∧ j < m.cols

/-- The float whose four bytes are found at a place of an archive, least significant first. -/
def floatAt (blob : Bytes) (place : ℕ) : F32 := BitVec.ofNat 32 (ofLittleEndian ((blob.drop place).take 4))

end WB.Spec
