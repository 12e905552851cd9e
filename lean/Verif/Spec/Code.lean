import Mathlib.Algebra.BigOperators.Group.Finset.Basic
import Mathlib.Data.Rat.Defs
import Mathlib.Algebra.Field.Rat
import Mathlib.Algebra.Order.Field.Rat

/-! Complete codes: independent vocabulary for the version-2 compressor. -/

namespace WB.Spec

/-- Code lengths for `used` groups of words, where group `t` has `size t` words: the lengths do not go down, are at most 31 and use up the
code space exactly (the sum of 2^-length over all words is 1). -/
structure CompleteCode (size : ℕ → ℕ) (used : ℕ) (lens : ℕ → ℕ) : Prop where
  mono : ∀ t, t + 1 < used → lens t ≤ lens (t + 1)
  le31 : ∀ t < used, lens t ≤ 31
  kraft : ∑ t ∈ Finset.range used, (size t : ℚ) / 2 ^ lens t = 1

/-- The lengths of the runs of zeros before the positions `is`, in increasing order, from position `next` on. -/
def zeroRuns : ℕ → List ℕ → List ℕ
  | _, [] => []
  | next, i :: is => (i - next) :: zeroRuns (i + 1) is

end WB.Spec
