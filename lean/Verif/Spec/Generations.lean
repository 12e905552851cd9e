import Verif.Spec.Lossy

/-! Vocabulary for statements about archives of archives. -/

namespace WB.Spec

/-- The same bit pattern, or two zeros. -/
def SameExceptZeroSign (x y : F32) : Prop := x = y ∨ isZeroPattern x ∧ isZeroPattern y

/-- `b'` has the parameters and the sizes of `b`, and its values are those of `b` cut to `prec` bits, up to signs of zeros. -/
def CutTo (prec : ℕ) (b b' : Buffer F32) : Prop :=
  b'.params = b.params ∧ List.Forall₂ (List.Forall₂ fun m m' => m'.rows = m.rows ∧ m'.cols = m.cols ∧
    ∀ i < m.rows, ∀ j < m.cols, SameExceptZeroSign (m'.get i j) (truncBits prec (m.get i j))) b.decs b'.decs

/-- `b'` comes out of `b` by writing it with the levels in the list and reading it again each time; every archive fits the memory. -/
inductive Generations (e : Ext) (Mem : ℕ) : List ℕ → Buffer F32 → Buffer F32 → Prop
  | none (b : Buffer F32) : Generations e Mem [] b b
  | more {level : ℕ} {ls : List ℕ} {b b1 b2 : Buffer F32} {old blob : Bytes} : serialize e b old level = .ok (true, blob) → blob.length ≤ Mem →
      parse e blob = .ok (some b1) → Generations e Mem ls b1 b2 → Generations e Mem (level :: ls) b b2

end WB.Spec
