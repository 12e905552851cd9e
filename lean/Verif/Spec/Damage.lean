import Verif.Spec.Size
import Verif.Spec.Local

/-! Vocabulary for statements about single coefficients in an archive. -/

namespace WB.Spec

/-- Bytes of an uncompressed archive in front of the coefficient `(i, j)` of subband `q` of channel `n`: the header, 28 bytes and 4 per
sample for every subband before it, 28 bytes for its own subband and 4 for every coefficient before it in the subband. -/
def placeOf (b : Buffer F32) (n q i j : ℕ) : ℕ :=
  headerSize b.params + ((b.decs.take n).flatten.map fun m => 28 + 4 * (m.rows * m.cols)).sum +
    (((b.decs.getD n []).take q).map fun m => 28 + 4 * (m.rows * m.cols)).sum + 28 +
    4 * (i * ((b.decs.getD n []).getD q Mat.empty).cols + j)

/-- The two have the same layout, and what is in subband `q` of channel `n` satisfies `R`; everything else is the same. -/
def SameElsewhere {α : Type} (R : Mat α → Mat α → Prop) (n q : ℕ) (d d' : Decs α) : Prop :=
  d'.length = d.length ∧ ∀ n' c, d[n']? = some c → ∃ c', d'[n']? = some c' ∧ c'.length = c.length ∧ ∀ q' m, c[q']? = some m →
    ∃ m', c'[q']? = some m' ∧ if n' = n ∧ q' = q then R m m' else m' = m

/-- Equal sizes. -/
def EqualSides {α : Type} (m m' : Mat α) : Prop := m'.rows = m.rows ∧ m'.cols = m.cols

/-- Equal sizes, and equal values everywhere but at `(i, j)`, where the second has `v`. -/
def SameBut {α : Type} [Inhabited α] (i j : ℕ) (v : α) (m m' : Mat α) : Prop :=
  EqualSides m m' ∧ ∀ a < m.rows, ∀ b < m.cols, m'.get a b = if a = i ∧ b = j then v else m.get a b

/-- The step a subband belongs to, counted from 1; the approximation belongs to the last. -/
def stepOf (p : Params) (q : ℕ) : ℕ := if q < p.steps * detailsPerStep p then q / detailsPerStep p + 1 else p.steps

/-- The coefficient `(i, j)` of subband `q` reaches the sample `(a, b)` of the approximation of `s` steps: its step is a later one, or it
is in the approximation, and both directions reach. -/
def Touches (p : Params) (s q i j a b : ℕ) : Prop :=
  (s < stepOf p q ∨ q = p.steps * detailsPerStep p) ∧ Reaches p.wtype (levelSides p s).1 (stepOf p q - s) i a ∧
    Reaches p.wtype (levelSides p s).2 (stepOf p q - s) j b

/-- The number whose bytes are given, least significant first. -/
def ofLittleEndian : Bytes → ℕ
  | [] => 0
  | x :: xs => x.toNat + 256 * ofLittleEndian xs

end WB.Spec
