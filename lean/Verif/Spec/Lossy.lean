import Verif.Spec.Float
import Verif.Spec.Serialize
import Mathlib.Data.Real.Basic

/-! Vocabulary for statements about lossy compression. -/

namespace WB.Spec

/-- A float cut to its first `prec` bits (sign, exponent, fraction), the others become 0. This is what fpzip documents and does when it
is asked for fewer than 32 bits of precision. -/
def truncBits (prec : ℕ) (x : BitVec 32) : BitVec 32 := BitVec.ofNat 32 (x.toNat / 2 ^ (32 - prec) * 2 ^ (32 - prec))

/-- The numbers in a matrix of floats. -/
def matNumbers (m : Mat F32) : Mat ℝ := m.map fun x => ((number x : ℚ) : ℝ)

/-- The numbers in a buffer of floats. -/
def numbers (b : Buffer F32) : Buffer ℝ := ⟨b.params, b.decs.map fun c => c.map matNumbers⟩

/-- No infinity and no NaN in a buffer. -/
def AllFinite (b : Buffer F32) : Prop := ∀ c ∈ b.decs, ∀ m ∈ c, ∀ i < m.rows, ∀ j < m.cols, expBits (m.get i j) < 255

end WB.Spec
