import Verif.Model.SimpleCall
import Verif.Spec.Denoise
import Verif.Spec.Callback

/-!
Vocabulary for statements about NaN and the simple denoiser.
-/

namespace WB.Spec

/-- Not a number: without its sign, a pattern beyond that of infinity. -/
def NotANumber (x : F32) : Prop := 0x7F800000 < x.toNat % 2 ^ 31

/-- `std::nth_element` keeps its promise whenever the comparison is a strict weak ordering on what it is given; nothing is known otherwise. -/
def NthPromise (o : FloatOps) (nth1 : List (F32 × ℕ) → ℕ → List (F32 × ℕ)) (nth2 : List (F32 × ℕ × ℕ) → ℕ → List (F32 × ℕ × ℕ)) : Prop :=
  (∀ v n, n ≤ v.length → StrictWeakOn (largerFirst o) v → NthContract (α := Bits o) Prod.fst v n (nth1 v n)) ∧
  ∀ v n, n ≤ v.length → StrictWeakOn (largerFirst o) v → NthContract (α := Bits o) Prod.fst v n (nth2 v n)

/-- There is no NaN among the samples, or those that are not NaN all have the same magnitude. -/
def Sortable (data : List F32) : Prop :=
  (∀ x ∈ data, ¬ NotANumber x) ∨ ∀ x ∈ data, ∀ y ∈ data, ¬ NotANumber x → ¬ NotANumber y → |number x| = |number y|

/-- A NaN spreads: a sum or product with a NaN is a NaN (IEEE 754, 6.2). -/
structure NanSpreads (o : FloatOps) : Prop where
  addL : ∀ x y, NotANumber x → NotANumber (o.add x y)
  addR : ∀ x y, NotANumber y → NotANumber (o.add x y)
  mulL : ∀ x y, NotANumber x → NotANumber (o.mul x y)
  mulR : ∀ x y, NotANumber y → NotANumber (o.mul x y)

/-- How the subband `m'` that the simple denoiser makes of `m` relates to it: it has
zeros in place of about a share `l` of the entries, and no entry dropped is larger than one kept. -/
def CutOff (o : FloatOps) (l : F32) (m m' : Mat F32) : Prop :=
  ∃ cut : ℕ, (cut : ℝ) ≤ (m.rows * m.cols : ℕ) * (number l * (1 + 1 / 2 ^ 22)) ∧
    KeepsLargest (α := Bits o) absBits (m.rows * m.cols - min cut (m.rows * m.cols - 1)) m m'

end WB.Spec
