import Verif.Spec.LevelOrder
import Verif.Spec.Pixel

/-! Vocabulary for statements about the size of the mantissa that a compression level leaves. -/

namespace WB.Spec

/-- The numbers of a binary floating point format with the exponents of `float` and a mantissa of `m` bits (`m = 23` is `float`, `m = 7` is `bfloat16`): whole
numbers of `m + 1` bits times a power of two that is at least that of the smallest subnormal number. -/
def SmallFloats (m : ℕ) : Set ℝ := FloatNumbers (m + 1) (-126 - m)

/-- `y` is what is left of `x` when the digits are cut off that do not fit `S`: the number in `S` closest to `x` between 0 and `x`. -/
def CutInto (S : Set ℝ) (x y : ℝ) : Prop := y ∈ S ∧ Toward x y ∧ ∀ v ∈ S, Toward x v → |v| ≤ |y|

/-- Size of the mantissa for a compression level from 1 to 16, docs/tutorials/wavelet_buffer_in_a_nutshell.md ("Sparse Float Compression"): 23 for level 1, 21
for level 2, 20 for level 3, ..., 7 for level 16. -/
def documentedMantissa (level : ℕ) : ℕ := if level = 1 then 23 else 23 - level

/-- `b'` has the parameters and the sizes of `b`, and the values in the same place are related by `P`. -/
def Cellwise (P : F32 → F32 → Prop) (b b' : Buffer F32) : Prop :=
  b'.params = b.params ∧ List.Forall₂ (List.Forall₂ fun m m' => m'.rows = m.rows ∧ m'.cols = m.cols ∧
    ∀ i < m.rows, ∀ j < m.cols, P (m.get i j) (m'.get i j)) b.decs b'.decs

end WB.Spec
